import Verif.Model.GainComputation
import Verif.Lemmas.Maps
/-! # Lemmas: rating maps and the scan for the best move -/
namespace Verif
namespace GainComp

/-! ### Rating maps -/

theorem modify_inv {t : SMap Int} {m : FMap Int} (h : t.Inv m) (b : Nat) (x : Int) :
    (t.modify 0 b (· + x)).Inv (fun c => if c = b then some ((m b).getD 0 + x) else m c) :=
  h.exec (d := 0) (.modify b (· + x))

theorem addScores_inv {src : Nat} {x : Nat → Int} : ∀ (cs : List Nat), cs.Nodup → ∀ {t : SMap Int} {m : FMap Int}, t.Inv m →
    (addScores src x cs t).Inv (fun b => if b ∈ cs ∧ b ≠ src then some ((m b).getD 0 + x b) else m b) := by
  intro cs
  induction cs with
  | nil => intro _ t m h; simpa [addScores] using h
  | cons c cs ih =>
    intro hn t m h
    rw [List.nodup_cons] at hn
    unfold addScores
    rw [List.foldl_cons]
    by_cases hc : src = c
    · rw [if_neg (by simp [hc])]
      have := ih hn.2 h
      unfold addScores at this
      convert this using 2 with b
      subst hc
      by_cases hb : b = src
      · simp [hb]
      · simp [hb]
    · rw [if_pos hc]
      have := ih hn.2 (modify_inv h c (x c))
      unfold addScores at this
      convert this using 2 with b
      by_cases hb : b = c
      · subst hb; simp [hn.1, Ne.symm hc]
      · simp [hb]

/-- two rating maps with the same entries in the same order -/
structure Same (t t' : SMap Int) : Prop where
  inv : ∃ m, t.Inv m ∧ t'.Inv m
  size : t'.size = t.size
  dense : ∀ i < t.size, t'.dense i = t.dense i

theorem Same.toList {t t' : SMap Int} (h : Same t t') : t'.toList = t.toList := by
  unfold SMap.toList
  rw [h.size]
  exact List.map_congr_left (fun i hi => h.dense i (List.mem_range.1 hi))

theorem Same.contains {t t' : SMap Int} (h : Same t t') (b : Nat) : t'.contains b = t.contains b := by
  obtain ⟨m, h1, h2⟩ := h.inv
  rw [h1.contains_iff, h2.contains_iff]

theorem Same.modify {t t' : SMap Int} (h : Same t t') (b : Nat) (x : Int) :
    Same (t.modify 0 b (· + x)) (t'.modify 0 b (· + x)) := by
  obtain ⟨m, h1, h2⟩ := h.inv
  refine ⟨⟨_, modify_inv h1 b x, modify_inv h2 b x⟩, ?_, ?_⟩
  · unfold SMap.modify
    rw [h.contains b]
    dsimp only
    split
    · show t'.size + 1 = t.size + 1
      rw [h.size]
    · exact h.size
  · unfold SMap.modify
    rw [h.contains b]
    dsimp only
    by_cases hc : t.contains b = true
    · rw [if_neg (by simp [hc]), if_neg (by simp [hc])]
      rw [h1.contains_iff, Option.isSome_iff_exists] at hc
      obtain ⟨v, hv⟩ := hc
      obtain ⟨a1, a2, a3⟩ := h1.idx hv
      obtain ⟨b1, b2, b3⟩ := h2.idx hv
      have hs : t'.sparse b = t.sparse b := by
        have := h.dense _ (h.size ▸ b1)
        rw [this] at b2
        exact h1.inj _ (h.size ▸ b1) _ a1 (b2.trans a2.symm)
      intro i hi
      simp only at hi ⊢
      rw [hs, h.dense _ a1]
      by_cases hi2 : i = t.sparse b
      · rw [hi2, wr_same, wr_same]
      · rw [wr_other _ _ hi2, wr_other _ _ hi2]; exact h.dense i hi
    · rw [if_pos hc, if_pos hc]
      intro i hi
      simp only at hi ⊢
      rw [h.size]
      by_cases hi2 : i = t.size
      · rw [hi2, wr_same, wr_same]
      · rw [wr_other _ _ hi2, wr_other _ _ hi2]; exact h.dense i (by omega)

theorem Same.addScores {src : Nat} {x x' : Nat → Int} : ∀ (cs : List Nat), (∀ b ∈ cs, x b = x' b) → ∀ {t t' : SMap Int}, Same t t' →
    Same (addScores src x cs t) (addScores src x' cs t') := by
  intro cs
  induction cs with
  | nil => intro _ t t' h; exact h
  | cons c cs ih =>
    intro hx t t' h
    have hx' := hx c (by simp)
    have := @ih (fun b hb => hx b (by simp [hb]))
    unfold GainComp.addScores at this ⊢
    rw [List.foldl_cons, List.foldl_cons]
    apply this
    split
    · rw [hx']; exact h.modify c _
    · exact h

theorem Same.empty {t t' : SMap Int} (h : t.size = 0) (h' : t'.size = 0) : Same t t' := by
  have e : ∀ t : SMap Int, t.size = 0 → t.Inv (fun _ => none) := by
    intro t ht
    refine ⟨⟨?_, ?_, ?_⟩, ?_⟩
    · intro i hi; omega
    · intro i hi; omega
    · intro k v hk; cases hk
    · intro i hi; omega
  exact ⟨⟨_, e t h, e t' h'⟩, by rw [h, h'], fun i hi => by omega⟩

theorem inv_empty {t : SMap Int} (h : t.size = 0) : t.Inv (fun _ => none) := by
  refine ⟨⟨?_, ?_, ?_⟩, ?_⟩
  · intro i hi; omega
  · intro i hi; omega
  · intro k v hk; cases hk
  · intro i hi; omega

/-! ### The scan -/

variable {a : Args} {ρ : Rand} {feas : Nat → Bool}

/-- a block the node may be moved to -/
def Adm (a : Args) (feas : Nat → Bool) (b : Nat) : Prop := a.allow = true ∨ feas b = true

theorem test_spec (dst : Nat) (score : Int) (noTie : Bool) (m : Best) :
    ((testAndApply a ρ feas dst score noTie m).1 = true ∧ (testAndApply a ρ feas dst score noTie m).2.blk = dst ∧
      (testAndApply a ρ feas dst score noTie m).2.gain = score ∧ Adm a feas dst ∧ score ≤ m.gain ∧
      (a.noRandom = true → score < m.gain)) ∨
    ((testAndApply a ρ feas dst score noTie m).1 = false ∧ (testAndApply a ρ feas dst score noTie m).2.blk = m.blk ∧
      (testAndApply a ρ feas dst score noTie m).2.gain = m.gain ∧ (Adm a feas dst → m.gain ≤ score) ∧
      (a.noRandom = false → noTie = true → Adm a feas dst → m.gain < score)) := by
  unfold testAndApply
  dsimp only
  split
  · rename_i h
    left
    simp only [Bool.and_eq_true, Bool.or_eq_true, decide_eq_true_eq, Bool.not_eq_true'] at h
    refine ⟨rfl, rfl, rfl, h.2, ?_, ?_⟩
    · rcases h.1 with h | h
      · omega
      · omega
    · intro hn; rcases h.1 with h | h
      · exact h
      · rw [hn] at h; simp at h
  · rename_i h
    right
    refine ⟨rfl, rfl, rfl, ?_, ?_⟩
    · intro ha
      by_contra hlt
      apply h
      simp only [Bool.and_eq_true, Bool.or_eq_true, decide_eq_true_eq]
      exact ⟨Or.inl (by omega), ha⟩
    · intro h1 h2 ha
      by_contra hlt
      apply h
      simp only [Bool.and_eq_true, Bool.or_eq_true, decide_eq_true_eq, h1, h2, Bool.not_false]
      refine ⟨?_, ha⟩
      by_cases hs : score < m.gain
      · exact Or.inl hs
      · exact Or.inr ⟨⟨by omega, trivial⟩, Or.inl trivial⟩

theorem scanScores_spec {gain : Int → Int → Int} {iso : Int} {src : Nat} {Γ : Nat → Int} {start : Int} :
    ∀ (l : List (Nat × Int)), (∀ x ∈ l, x.1 ≠ src → gain x.2 iso = Γ x.1) → ∀ (seen : List Nat) (m : Best),
    (m.blk = src ∧ m.gain = start ∧ (∀ b ∈ seen, b ≠ src → Adm a feas b → start ≤ Γ b) ∨
     m.blk ≠ src ∧ m.blk ∈ seen ∧ Adm a feas m.blk ∧ m.gain = Γ m.blk ∧ m.gain ≤ start ∧ (a.noRandom = true → m.gain < start) ∧
      (∀ b ∈ seen, b ≠ src → Adm a feas b → m.gain ≤ Γ b)) →
    ((scanScores a ρ feas gain iso src l m).blk = src ∧ (scanScores a ρ feas gain iso src l m).gain = start ∧
      (∀ b ∈ seen ++ l.map Prod.fst, b ≠ src → Adm a feas b → start ≤ Γ b) ∨
     (scanScores a ρ feas gain iso src l m).blk ≠ src ∧ (scanScores a ρ feas gain iso src l m).blk ∈ seen ++ l.map Prod.fst ∧
      Adm a feas (scanScores a ρ feas gain iso src l m).blk ∧
      (scanScores a ρ feas gain iso src l m).gain = Γ (scanScores a ρ feas gain iso src l m).blk ∧
      (scanScores a ρ feas gain iso src l m).gain ≤ start ∧
      (a.noRandom = true → (scanScores a ρ feas gain iso src l m).gain < start) ∧
      (∀ b ∈ seen ++ l.map Prod.fst, b ≠ src → Adm a feas b → (scanScores a ρ feas gain iso src l m).gain ≤ Γ b)) := by
  intro l
  induction l with
  | nil => intro _ seen m h; simpa [scanScores] using h
  | cons x l ih =>
    intro hl seen m h
    have ih' := fun m' h' => ih (fun y hy => hl y (by simp [hy])) (seen ++ [x.1]) m' h'
    have hap : seen ++ [x.1] ++ l.map Prod.fst = seen ++ (x :: l).map Prod.fst := by simp
    rw [hap] at ih'
    have hfold : scanScores a ρ feas gain iso src (x :: l) m = scanScores a ρ feas gain iso src l
        (if src ≠ x.1 then (testAndApply a ρ feas x.1 (gain x.2 iso) false m).2 else m) := by
      unfold scanScores; rw [List.foldl_cons]
    rw [hfold]
    apply ih'
    by_cases hx : src = x.1
    · rw [if_neg (by simp [hx])]
      rcases h with ⟨h1, h2, h3⟩ | ⟨h1, h2, h3, h4, h5, h6, h7⟩
      · refine Or.inl ⟨h1, h2, fun b hb hne ha => ?_⟩
        rw [List.mem_append, List.mem_singleton] at hb
        rcases hb with hb | hb
        · exact h3 b hb hne ha
        · exact absurd (hb.trans hx.symm) hne
      · refine Or.inr ⟨h1, by simp [h2], h3, h4, h5, h6, fun b hb hne ha => ?_⟩
        rw [List.mem_append, List.mem_singleton] at hb
        rcases hb with hb | hb
        · exact h7 b hb hne ha
        · exact absurd (hb.trans hx.symm) hne
    · rw [if_pos hx]
      have hg := hl x (by simp) (Ne.symm hx)
      rcases test_spec (a := a) (ρ := ρ) (feas := feas) x.1 (gain x.2 iso) false m with ⟨_, t2, t3, t4, t5, t6⟩ | ⟨_, t2, t3, t4, _⟩
      · right
        rw [t2, t3, hg]
        rw [hg] at t5 t6
        have hms : m.gain ≤ start := by
          rcases h with ⟨_, h2, _⟩ | ⟨_, _, _, _, h5, _, _⟩ <;> omega
        refine ⟨Ne.symm hx, by simp, t4, rfl, by omega, fun hn => by have := t6 hn; omega, fun b hb hne ha => ?_⟩
        rw [List.mem_append, List.mem_singleton] at hb
        rcases hb with hb | hb
        · rcases h with ⟨_, h2, h3⟩ | ⟨_, _, _, _, _, _, h7⟩
          · have := h3 b hb hne ha; omega
          · have := h7 b hb hne ha; omega
        · rw [hb]
      · rw [t2, t3]
        rcases h with ⟨h1, h2, h3⟩ | ⟨h1, h2, h3, h4, h5, h6, h7⟩
        · refine Or.inl ⟨h1, h2, fun b hb hne ha => ?_⟩
          rw [List.mem_append, List.mem_singleton] at hb
          rcases hb with hb | hb
          · exact h3 b hb hne ha
          · subst hb; have := t4 ha; omega
        · refine Or.inr ⟨h1, by simp [h2], h3, h4, h5, h6, fun b hb hne ha => ?_⟩
          rw [List.mem_append, List.mem_singleton] at hb
          rcases hb with hb | hb
          · exact h7 b hb hne ha
          · subst hb; have := t4 ha; omega

theorem scanOthers_cons {t : SMap Int} {iso : Int} {src c : Nat} {bs : List Nat} {r : List Nat × Best} :
    scanOthers a ρ feas t iso src (c :: bs) r = scanOthers a ρ feas t iso src bs
        (if src ≠ c ∧ t.contains c = false then
          (if (testAndApply a ρ feas c iso true r.2).1 then r.1 ++ [c] else r.1, (testAndApply a ρ feas c iso true r.2).2) else r) := by
  unfold scanOthers; rw [List.foldl_cons]

/-- collected blocks stay collected -/
theorem scanOthers_mono {t : SMap Int} {iso : Int} {src x : Nat} : ∀ (l : List Nat) (q : List Nat × Best), x ∈ q.1 →
    x ∈ (scanOthers a ρ feas t iso src l q).1 := by
  intro l
  induction l with
  | nil => intro q h; exact h
  | cons y l ih' =>
    intro q h
    rw [scanOthers_cons]
    apply ih'
    by_cases hc : src ≠ y ∧ t.contains y = false
    · rw [if_pos hc]
      cases (testAndApply a ρ feas y iso true q.2).1
      · exact h
      · exact List.mem_append_left _ h
    · rw [if_neg hc]; exact h

/-- the scan over the non-adjacent blocks: all collected blocks are admissible non-adjacent blocks; if there are none,
no admissible one has a gain below the current one -/
theorem scanOthers_spec {t : SMap Int} {iso : Int} {src : Nat} {start : Int} :
    ∀ (bs : List Nat) (r : List Nat × Best), (r.1 = [] → r.2.blk = src ∧ r.2.gain = start) →
      (r.1 ≠ [] → iso ≤ start ∧ (a.noRandom = true → iso < start)) → (r.1 ≠ [] → r.2.gain = iso) →
      (∀ b ∈ r.1, b ≠ src ∧ t.contains b = false ∧ Adm a feas b) →
    let r' := scanOthers a ρ feas t iso src bs r
    (∀ b ∈ r'.1, (b ∈ r.1 ∨ b ∈ bs) ∧ b ≠ src ∧ t.contains b = false ∧ Adm a feas b) ∧
    (r'.1 = [] → r'.2.blk = src ∧ r'.2.gain = start ∧
      ∀ b ∈ bs, b ≠ src → t.contains b = false → Adm a feas b → start ≤ iso) ∧
    (r'.1 ≠ [] → iso ≤ start ∧ (a.noRandom = true → iso < start)) := by
  intro bs
  induction bs with
  | nil =>
    intro r h1 h2 _ h4
    refine ⟨fun b hb => ⟨Or.inl hb, h4 b hb⟩, fun he => ⟨(h1 he).1, (h1 he).2, by simp⟩, h2⟩
  | cons c bs ih =>
    intro r h1 h2 h3 h4
    intro r'
    have hr' : r' = scanOthers a ρ feas t iso src (c :: bs) r := rfl
    rw [scanOthers_cons] at hr'
    clear_value r'
    by_cases hc : src ≠ c ∧ t.contains c = false
    · rw [if_pos hc] at hr'
      rcases test_spec (a := a) (ρ := ρ) (feas := feas) c iso true r.2 with ⟨t1, t2, t3, t4, t5, t6⟩ | ⟨t1, t2, t3, t4, t5⟩
      · rw [t1, if_pos rfl] at hr'
        have hst : iso ≤ start ∧ (a.noRandom = true → iso < start) := by
          by_cases he : r.1 = []
          · have := (h1 he).2
            exact ⟨by omega, fun hn => by have := t6 hn; omega⟩
          · exact h2 he
        have := ih (r.1 ++ [c], (testAndApply a ρ feas c iso true r.2).2) (by simp) (fun _ => hst) (fun _ => t3) (by
          intro b hb
          rw [List.mem_append, List.mem_singleton] at hb
          rcases hb with hb | hb
          · exact h4 b hb
          · subst hb; exact ⟨Ne.symm hc.1, hc.2, t4⟩)
        rw [← hr'] at this
        obtain ⟨q1, q2, q3⟩ := this
        refine ⟨fun b hb => ?_, fun he => ?_, q3⟩
        · obtain ⟨q, q'⟩ := q1 b hb
          refine ⟨?_, q'⟩
          rw [List.mem_append, List.mem_singleton] at q
          rw [List.mem_cons]
          exact or_assoc.1 q
        · have hne : ∃ x, x ∈ r'.1 := ⟨c, by rw [hr']; exact scanOthers_mono bs _ (by simp)⟩
          obtain ⟨x, hx⟩ := hne
          rw [he] at hx; simp at hx
      · rw [t1] at hr'
        simp only [Bool.false_eq_true, if_false] at hr'
        have := ih (r.1, (testAndApply a ρ feas c iso true r.2).2) (fun he => by
            rw [t2, t3]; exact h1 he) h2 (fun he => by rw [t3]; exact h3 he) h4
        rw [← hr'] at this
        obtain ⟨q1, q2, q3⟩ := this
        refine ⟨fun b hb => ?_, fun he => ?_, q3⟩
        · obtain ⟨q, q'⟩ := q1 b hb
          refine ⟨?_, q'⟩
          exact q.imp id (List.mem_cons_of_mem _)
        · obtain ⟨p1, p2, p3⟩ := q2 he
          refine ⟨p1, p2, fun b hb hne hco ha => ?_⟩
          rw [List.mem_cons] at hb
          rcases hb with rfl | hb
          · have h5 := t4 ha
            by_cases he' : r.1 = []
            · have := (h1 he').2; omega
            · obtain ⟨x, hx⟩ := List.exists_mem_of_ne_nil _ he'
              have hx' : x ∈ r'.1 := by rw [hr']; exact scanOthers_mono bs _ hx
              rw [he] at hx'; simp at hx'
          · exact p3 b hb hne hco ha
    · rw [if_neg hc] at hr'
      have := ih r h1 h2 h3 h4
      rw [← hr'] at this
      obtain ⟨q1, q2, q3⟩ := this
      refine ⟨fun b hb => ?_, fun he => ?_, q3⟩
      · obtain ⟨q, q'⟩ := q1 b hb
        refine ⟨?_, q'⟩
        exact q.imp id (List.mem_cons_of_mem _)
      · obtain ⟨p1, p2, p3⟩ := q2 he
        refine ⟨p1, p2, fun b hb hne hco ha => ?_⟩
        rw [List.mem_cons] at hb
        rcases hb with rfl | hb
        · exact absurd ⟨Ne.symm hne, hco⟩ hc
        · exact p3 b hb hne hco ha

/-- the start value of the best gain -/
def startGain (a : Args) : Int := if a.rebalance then 2147483647 else 0

/-- what `computeMaxGainMoveForScores` returns -/
theorem maxMove_spec {gain : Int → Int → Int} {s : Scratch} {m : FMap Int} (hI : s.tmp.Inv m) {src : Nat} {Γ : Nat → Int}
    (hl : ∀ b x, m b = some x → b ≠ src → gain x s.iso = Γ b) (hk : ∀ b x, m b = some x → b < a.k)
    (ho : a.nonAdj = true → ∀ b, b < a.k → b ≠ src → m b = none → s.iso = Γ b) (hp : ∀ n, 0 < n → ρ.pick n < n) :
    ((maxMove a ρ feas gain s src).1 = src ∧ (maxMove a ρ feas gain s src).2 = startGain a ∧
      ∀ b, b ≠ src → Adm a feas b → (m b ≠ none ∨ (a.nonAdj = true ∧ b < a.k)) → startGain a ≤ Γ b) ∨
    ((maxMove a ρ feas gain s src).1 ≠ src ∧ (maxMove a ρ feas gain s src).1 < a.k ∧ Adm a feas (maxMove a ρ feas gain s src).1 ∧
      (maxMove a ρ feas gain s src).2 = Γ (maxMove a ρ feas gain s src).1 ∧
      (maxMove a ρ feas gain s src).2 ≤ startGain a ∧ (a.noRandom = true → (maxMove a ρ feas gain s src).2 < startGain a) ∧
      (∀ b, b ≠ src → Adm a feas b → m b ≠ none → (maxMove a ρ feas gain s src).2 ≤ Γ b) ∧
      (m (maxMove a ρ feas gain s src).1 = none → a.nonAdj = true ∧ (maxMove a ρ feas gain s src).2 = s.iso)) := by
  have hL := hI.toDenseInv.lists
  have hmem : ∀ b, b ∈ s.tmp.toList.map Prod.fst ↔ m b ≠ none := by
    intro b
    constructor
    · intro hb
      obtain ⟨x, hx, rfl⟩ := List.mem_map.1 hb
      rw [(hL.2 x.1 x.2).1 hx]; simp
    · intro hb
      obtain ⟨v, hv⟩ := Option.ne_none_iff_exists'.1 hb
      exact List.mem_map.2 ⟨(b, v), (hL.2 b v).2 hv, rfl⟩
  have key := scanScores_spec (a := a) (ρ := ρ) (feas := feas) (gain := gain) (iso := s.iso) (src := src) (Γ := Γ) (start := startGain a)
    s.tmp.toList (fun x hx hne => hl x.1 x.2 ((hL.2 x.1 x.2).1 hx) hne) [] ⟨src, startGain a, 0⟩ (Or.inl ⟨rfl, rfl, by simp⟩)
  simp only [List.nil_append] at key
  unfold maxMove
  have hstart : (if a.rebalance = true then (2147483647 : Int) else 0) = startGain a := rfl
  simp only [hstart]
  set M := scanScores a ρ feas gain s.iso src s.tmp.toList ⟨src, startGain a, 0⟩ with hM
  rcases key with ⟨k1, k2, k3⟩ | ⟨k1, k2, k3, k4, k5, k6, k7⟩
  · by_cases hna : a.nonAdj = true
    · rw [if_pos ⟨hna, k1⟩]
      have so := scanOthers_spec (a := a) (ρ := ρ) (feas := feas) (t := s.tmp) (iso := s.iso) (src := src) (start := startGain a)
        (List.range a.k) ([], M) (fun _ => ⟨k1, k2⟩) (by simp) (by simp) (by simp)
      dsimp only at so
      obtain ⟨o1, o2, o3⟩ := so
      have hcont : ∀ b, s.tmp.contains b = false ↔ m b = none := by
        intro b; rw [hI.contains_iff]; cases m b <;> simp
      split
      · rename_i hlen
        right
        have hidx := hp _ hlen
        set L := (scanOthers a ρ feas s.tmp s.iso src (List.range a.k) ([], M)).1 with hLL
        have hg : L.getD (ρ.pick L.length) 0 ∈ L := by
          rw [List.getD_eq_getElem _ _ hidx]; exact List.getElem_mem _
        obtain ⟨g1, g2, g3, g4⟩ := o1 _ hg
        have hlt : L.getD (ρ.pick L.length) 0 < a.k := by
          rcases g1 with g1 | g1
          · simp at g1
          · exact List.mem_range.1 g1
        have hne : L ≠ [] := by intro he; rw [he] at hlen; simp at hlen
        obtain ⟨i1, i2⟩ := o3 hne
        refine ⟨g2, hlt, g4, ho hna _ hlt g2 ((hcont _).1 g3), i1, i2, fun b hb ha hm => ?_, fun _ => ⟨hna, rfl⟩⟩
        have := k3 b ((hmem b).2 hm) hb ha
        dsimp only
        omega
      · rename_i hlen
        left
        have he : (scanOthers a ρ feas s.tmp s.iso src (List.range a.k) ([], M)).1 = [] := by
          apply List.eq_nil_of_length_eq_zero; omega
        obtain ⟨p1, p2, p3⟩ := o2 he
        refine ⟨p1, p2, fun b hb ha hm => ?_⟩
        by_cases hmb : m b = none
        · rcases hm with hm | ⟨_, hm⟩
          · exact absurd hmb hm
          · have := p3 b (List.mem_range.2 hm) hb ((hcont b).2 hmb) ha
            rw [ho hna b hm hb hmb] at this
            exact this
        · exact k3 b ((hmem b).2 hmb) hb ha
    · rw [if_neg (by tauto)]
      left
      refine ⟨k1, k2, fun b hb ha hm => ?_⟩
      rcases hm with hm | ⟨hm, _⟩
      · exact k3 b ((hmem b).2 hm) hb ha
      · exact absurd hm hna
  · rw [if_neg (by tauto)]
    right
    obtain ⟨v, hv⟩ := Option.ne_none_iff_exists'.1 ((hmem _).1 k2)
    exact ⟨k1, hk _ v hv, k3, k4, k5, k6, fun b hb ha hm => k7 b ((hmem b).2 hm) hb ha, fun h => by rw [hv] at h; cases h⟩

end GainComp
end Verif
