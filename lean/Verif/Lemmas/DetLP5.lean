import Verif.Lemmas.DetLP4
import Verif.Lemmas.DetC1
import Verif.Lemmas.Maps
/-! # The activation of neighbours has the same result for every schedule -/
namespace Verif
namespace DetLP
open SMap (wr)
open SMap

variable {Γ : Type} {c : Cfg Γ}

/-- nets that are looked at for the first time in this round -/
def touched (c : Cfg Γ) (rd : Nat) (A : List Mv) (a : ASt) (e : Nat) : Prop :=
  (∃ m ∈ A, e ∈ c.H.inc m.node) ∧ (c.H.pins e).length ≤ c.actSize ∧ a.lmE e ≠ rd

/-- nodes that become active -/
def woken (c : Cfg Γ) (rd : Nat) (A : List Mv) (a : ASt) (v : Nat) : Prop :=
  (∃ e, touched c rd A a e ∧ v ∈ c.H.pins e) ∧ a.lmN v ≠ rd

def todoE (c : Cfg Γ) (A : List Mv) (i : Nat) : Option APc → List Nat
  | none => match A[i]? with
    | none => []
    | some m => c.H.inc m.node
  | some (.edges es) => es
  | some (.mark e es) => e :: es
  | some (.pins _ es) => es
  | some (.cas _ _ _ es) => es
  | some (.push _ _ es) => es

def todoV : Option APc → List Nat
  | none => []
  | some (.edges _) => []
  | some (.mark _ _) => []
  | some (.pins vs _) => vs
  | some (.cas v _ vs _) => v :: vs
  | some (.push _ vs _) => vs

def pushing (v : Nat) : Option APc → Int
  | some (.push w _ _) => if w = v then 1 else 0
  | _ => 0

/-- what the program counters say -/
def PcOk (c : Cfg Γ) (rd : Nat) (A : List Mv) (a0 a : ASt) : Option APc → Prop
  | some (.mark e _) => touched c rd A a0 e
  | some (.cas v l _ _) => l = a0.lmN v ∧ woken c rd A a0 v
  | some (.push v _ _) => woken c rd A a0 v ∧ a.lmN v = rd
  | _ => True

open Classical in
structure AInv (c : Cfg Γ) (rd : Nat) (A : List Mv) (a0 : ASt) (x : Par.PSt ASt (Option APc)) : Prop where
  valE : ∀ e, x.s.lmE e = a0.lmE e ∨ (x.s.lmE e = rd ∧ touched c rd A a0 e)
  valN : ∀ v, x.s.lmN v = a0.lmN v ∨ (x.s.lmN v = rd ∧ woken c rd A a0 v)
  subE : ∀ i < A.length, ∀ e ∈ todoE c A i (x.pc i), ∃ m ∈ A, e ∈ c.H.inc m.node
  subV : ∀ i < A.length, ∀ v ∈ todoV (x.pc i), ∃ e, touched c rd A a0 e ∧ v ∈ c.H.pins e
  ok : ∀ i < A.length, PcOk c rd A a0 x.s (x.pc i)
  allE : ∀ e, touched c rd A a0 e → x.s.lmE e = rd ∨ ∃ i < A.length, e ∈ todoE c A i (x.pc i)
  allV : ∀ e, touched c rd A a0 e → x.s.lmE e = rd → ∀ v ∈ c.H.pins e, x.s.lmN v = rd ∨ ∃ i < A.length, v ∈ todoV (x.pc i)
  cnt : ∀ v, (x.s.act.count v : Int) + ((List.range A.length).map (fun i => pushing v (x.pc i))).sum =
    a0.act.count v + if woken c rd A a0 v ∧ x.s.lmN v = rd then 1 else 0

theorem keep {n : Nat} {f : Nat → Option APc → List Nat} {pc : Nat → Option APc} {u v : Nat} {p : Option APc} {Q : Prop}
    (h : ∃ i < n, v ∈ f i (pc i)) (hu : v ∈ f u (pc u) → v ∈ f u p ∨ Q) : Q ∨ ∃ i < n, v ∈ f i (wr pc u p i) := by
  obtain ⟨i, hi, hv⟩ := h
  by_cases hiu : i = u
  · subst hiu
    rcases hu hv with h1 | h1
    · exact Or.inr ⟨i, hi, by rw [wr_same]; exact h1⟩
    · exact Or.inl h1
  · exact Or.inr ⟨i, hi, by rw [wr_other _ _ hiu]; exact hv⟩

theorem pc_upd {n : Nat} {P : Nat → Option APc → Prop} {pc : Nat → Option APc} {u : Nat} {p : Option APc} (h : ∀ i < n, i ≠ u → P i (pc i)) (hu : P u p) :
    ∀ i < n, P i (wr pc u p i) := by
  intro i hi
  by_cases hiu : i = u
  · subst hiu; rw [wr_same]; exact hu
  · rw [wr_other _ _ hiu]; exact h i hi hiu

theorem push_sum {n : Nat} {pc : Nat → Option APc} {u : Nat} {p : Option APc} (hu : u < n) (v : Nat) :
    ((List.range n).map (fun i => pushing v (wr pc u p i))).sum = ((List.range n).map (fun i => pushing v (pc i))).sum - pushing v (pc u) + pushing v p := by
  rw [DetC.sum_change List.nodup_range (List.mem_range.2 hu) (f := fun i => pushing v (pc i)) (g := fun i => pushing v (wr pc u p i))]
  · simp only [wr_same]
  · intro x _ hx; simp only [wr_other _ _ hx]

theorem PcOk.mono {rd : Nat} {A : List Mv} {a0 a a' : ASt} (h : ∀ v, a.lmN v = rd → a'.lmN v = rd) {p : Option APc} (hp : PcOk c rd A a0 a p) : PcOk c rd A a0 a' p := by
  rcases p with _ | p
  · trivial
  · cases p <;> simp only [PcOk] at hp ⊢
    · exact hp
    · exact hp
    · exact ⟨hp.1, h _ hp.2⟩

theorem ainv_start (rd : Nat) (A : List Mv) (a : ASt) : AInv c rd A a ⟨a, fun _ => none⟩ := by
  refine ⟨fun e => Or.inl rfl, fun v => Or.inl rfl, ?_, ?_, ?_, ?_, ?_, ?_⟩
  · intro i hi e he
    simp only [todoE, List.getElem?_eq_getElem hi] at he
    exact ⟨A[i], List.getElem_mem hi, he⟩
  · intro i _ v hv; simp [todoV] at hv
  · intro i _; trivial
  · rintro e ⟨⟨m, hm, he⟩, _⟩
    obtain ⟨i, hi, rfl⟩ := List.mem_iff_getElem.1 hm
    exact Or.inr ⟨i, hi, by simp only [todoE, List.getElem?_eq_getElem hi]; exact he⟩
  · intro e he h; exact absurd h he.2.2
  · intro v
    have h0 : ((List.range A.length).map (fun i => pushing v (none : Option APc))).sum = 0 := by
      apply DetC.sum_zero; intro x _; rfl
    rw [h0, if_neg (by rintro ⟨h1, h2⟩; exact h1.2 h2)]

open Classical in
theorem ainv_step {rd : Nat} {A : List Mv} {a0 : ASt} (x : Par.PSt ASt (Option APc)) (u : Nat) (p : Option APc) (s' : ASt) (hu : u ∈ List.range A.length)
    (h : AInv c rd A a0 x) (hs : nextM c rd A u (x.pc u) x.s = some (p, s')) : AInv c rd A a0 ⟨s', wr x.pc u p⟩ := by
  have hul : u < A.length := List.mem_range.1 hu
  obtain ⟨valE, valN, subE, subV, ok, allE, allV, cnt⟩ := h
  have sE := subE u hul
  have sV := subV u hul
  have oK := ok u hul
  -- steps that only change the program counter
  have same : ∀ (p : Option APc), (∀ e ∈ todoE c A u p, e ∈ todoE c A u (x.pc u)) → (∀ v ∈ todoV p, ∃ e, touched c rd A a0 e ∧ v ∈ c.H.pins e) →
      PcOk c rd A a0 x.s p →
      (∀ e, touched c rd A a0 e → e ∈ todoE c A u (x.pc u) → e ∈ todoE c A u p ∨ x.s.lmE e = rd) →
      (∀ v ∈ todoV (x.pc u), v ∈ todoV p ∨ x.s.lmN v = rd) → (∀ v, pushing v p = pushing v (x.pc u)) → AInv c rd A a0 ⟨x.s, wr x.pc u p⟩ := by
    intro p h1 h2 h3 h4 h5 h6
    refine ⟨valE, valN, pc_upd (P := fun i q => ∀ e ∈ todoE c A i q, ∃ m ∈ A, e ∈ c.H.inc m.node) (fun i hi _ => subE i hi) (fun e he => sE e (h1 e he)),
      pc_upd (P := fun i q => ∀ v ∈ todoV q, ∃ e, touched c rd A a0 e ∧ v ∈ c.H.pins e) (fun i hi _ => subV i hi) h2,
      pc_upd (P := fun i q => PcOk c rd A a0 x.s q) (fun i hi _ => ok i hi) h3, ?_, ?_, ?_⟩
    · intro e he
      rcases allE e he with h | h
      · exact Or.inl h
      · exact keep (f := todoE c A) h (h4 e he)
    · intro e he hm v hv
      rcases allV e he hm v hv with h | h
      · exact Or.inl h
      · exact keep (f := fun _ => todoV) h (h5 v)
    · intro v
      show (x.s.act.count v : Int) + _ = _
      rw [push_sum hul, h6 v, ← cnt v]; omega
  generalize hq : x.pc u = q at hs sE sV oK same
  rcases q with _ | q
  · simp only [nextM] at hs
    have hA : A[u]? = some A[u] := List.getElem?_eq_getElem hul
    rw [hA] at hs
    simp only [Option.some.injEq, Prod.mk.injEq] at hs
    obtain ⟨rfl, rfl⟩ := hs
    refine same _ (fun e he => ?_) (by simp [todoV]) trivial (fun e _ he => Or.inl ?_) (by simp [todoV]) (fun v => rfl)
    · simpa only [todoE, hA] using he
    · simpa only [todoE, hA] using he
  · rw [nextM, Option.map_eq_some_iff] at hs
    obtain ⟨⟨q', t⟩, hs, he⟩ := hs
    simp only [Prod.mk.injEq] at he
    obtain ⟨rfl, rfl⟩ := he
    rcases q with ⟨es⟩ | ⟨e, es⟩ | ⟨vs, es⟩ | ⟨v, l, vs, es⟩ | ⟨v, vs, es⟩
    · rcases es with _ | ⟨e, es⟩
      · simp [nextA] at hs
      · simp only [nextA] at hs
        split_ifs at hs with hc <;> simp only [Option.some.injEq, Prod.mk.injEq] at hs <;> obtain ⟨rfl, rfl⟩ := hs
        · have hl : a0.lmE e ≠ rd := by
            rcases valE e with h | h
            · rw [← h]; exact hc.2
            · exact absurd h.1 hc.2
          refine same _ (by simp [todoE]) (by simp [todoV]) ⟨sE e (by simp [todoE]), hc.1, hl⟩ (fun e' _ h => Or.inl (by simpa [todoE] using h)) (by simp [todoV]) (fun v => rfl)
        · refine same _ (fun e' h => by simp only [todoE] at h ⊢; exact List.mem_cons_of_mem _ h) (by simp [todoV]) trivial ?_ (by simp [todoV]) (fun v => rfl)
          intro e' ht h
          simp only [todoE, List.mem_cons] at h ⊢
          rcases h with rfl | h
          · right
            by_contra hh
            exact hc ⟨ht.2.1, hh⟩
          · exact Or.inl h
    · simp only [nextA, Option.some.injEq, Prod.mk.injEq] at hs
      obtain ⟨rfl, rfl⟩ := hs
      have ht : touched c rd A a0 e := oK
      refine ⟨?_, valN, pc_upd (P := fun i q => ∀ e ∈ todoE c A i q, ∃ m ∈ A, e ∈ c.H.inc m.node) (fun i hi _ => subE i hi) (fun e' he => sE e' (by simp only [todoE] at he ⊢; simp [he])),
        pc_upd (P := fun i q => ∀ v ∈ todoV q, ∃ e, touched c rd A a0 e ∧ v ∈ c.H.pins e) (fun i hi _ => subV i hi) (fun v hv => ⟨e, ht, hv⟩),
        pc_upd (P := fun i q => PcOk c rd A a0 _ q) (fun i hi _ => (ok i hi).mono (fun _ h => h)) trivial, ?_, ?_, ?_⟩
      · intro e'
        by_cases hee : e' = e
        · subst hee; right; exact ⟨wr_same _ _ _, ht⟩
        · show wr x.s.lmE e rd e' = _ ∨ (wr x.s.lmE e rd e' = rd ∧ _)
          rw [wr_other _ _ hee]; exact valE e'
      · intro e' he'
        show wr x.s.lmE e rd e' = rd ∨ _
        by_cases hee : e' = e
        · subst hee; left; exact wr_same _ _ _
        · rw [wr_other _ _ hee]
          rcases allE e' he' with h | h
          · exact Or.inl h
          · refine keep (f := todoE c A) h (fun hh => Or.inl ?_)
            rw [hq] at hh
            simp only [todoE, List.mem_cons] at hh ⊢
            exact hh.resolve_left hee
      · intro e' he' hm v hv
        by_cases hee : e' = e
        · subst hee
          right
          exact ⟨u, hul, by show v ∈ todoV (wr x.pc u _ u); rw [wr_same]; exact hv⟩
        · have hm' : x.s.lmE e' = rd := by
            have : wr x.s.lmE e rd e' = rd := hm
            rwa [wr_other _ _ hee] at this
          rcases allV e' he' hm' v hv with h | h
          · exact Or.inl h
          · refine keep (f := fun _ => todoV) h (fun hh => ?_)
            rw [hq] at hh
            simp [todoV] at hh
      · intro v
        show (x.s.act.count v : Int) + _ = _
        rw [push_sum hul, hq, ← cnt v]; simp [pushing]
    · rcases vs with _ | ⟨v, vs⟩
      · simp only [nextA, Option.some.injEq, Prod.mk.injEq] at hs
        obtain ⟨rfl, rfl⟩ := hs
        exact same _ (by simp [todoE]) (by simp [todoV]) trivial (fun e _ h => Or.inl h) (by simp [todoV]) (fun v => rfl)
      · simp only [nextA] at hs
        split_ifs at hs with hc <;> simp only [Option.some.injEq, Prod.mk.injEq] at hs <;> obtain ⟨rfl, rfl⟩ := hs
        · have hl : x.s.lmN v = a0.lmN v := by
            rcases valN v with h | h
            · exact h
            · exact absurd h.1 hc
          exact same _ (by simp [todoE]) sV ⟨hl, sV v (by simp [todoV]), by rw [← hl]; exact hc⟩ (fun e _ h => Or.inl h) (fun v' h => Or.inl h) (fun v => rfl)
        · refine same _ (by simp [todoE]) (fun v' h => sV v' (by simp only [todoV] at h ⊢; simp [h])) trivial (fun e _ h => Or.inl h) ?_ (fun v => rfl)
          intro v' h
          simp only [todoV, List.mem_cons] at h ⊢
          rcases h with rfl | h
          · right; by_contra hh; exact hc hh
          · exact Or.inl h
    · obtain ⟨hl, hwk⟩ := oK
      simp only [nextA] at hs
      split_ifs at hs with hc <;> simp only [Option.some.injEq, Prod.mk.injEq] at hs <;> obtain ⟨rfl, rfl⟩ := hs
      · have hne : x.s.lmN v ≠ rd := by rw [hc, hl]; exact hwk.2
        have hmono : ∀ v', x.s.lmN v' = rd → wr x.s.lmN v rd v' = rd := by
          intro v' h
          by_cases hvv : v' = v
          · subst hvv; exact wr_same _ _ _
          · rw [wr_other _ _ hvv]; exact h
        refine ⟨valE, ?_, pc_upd (P := fun i q => ∀ e ∈ todoE c A i q, ∃ m ∈ A, e ∈ c.H.inc m.node) (fun i hi _ => subE i hi) (fun e' he => sE e' he),
          pc_upd (P := fun i q => ∀ v ∈ todoV q, ∃ e, touched c rd A a0 e ∧ v ∈ c.H.pins e) (fun i hi _ => subV i hi) (fun v' hv => sV v' (by simp only [todoV] at hv ⊢; simp [hv])),
          pc_upd (P := fun i q => PcOk c rd A a0 _ q) (fun i hi _ => (ok i hi).mono hmono) ⟨hwk, wr_same _ _ _⟩, ?_, ?_, ?_⟩
        · intro v'
          show wr x.s.lmN v rd v' = _ ∨ (wr x.s.lmN v rd v' = rd ∧ _)
          by_cases hvv : v' = v
          · subst hvv; right; exact ⟨wr_same _ _ _, hwk⟩
          · rw [wr_other _ _ hvv]; exact valN v'
        · intro e he
          rcases allE e he with h | h
          · exact Or.inl h
          · refine keep (f := todoE c A) h (fun hh => Or.inl ?_)
            rw [hq] at hh; exact hh
        · intro e he hm v' hv
          show wr x.s.lmN v rd v' = rd ∨ _
          rcases allV e he hm v' hv with h | h
          · exact Or.inl (hmono v' h)
          · refine keep (f := fun _ => todoV) h (fun hh => ?_)
            rw [hq] at hh
            simp only [todoV, List.mem_cons] at hh ⊢
            rcases hh with rfl | hh
            · right; exact wr_same _ _ _
            · exact Or.inl hh
        · intro v'
          show (x.s.act.count v' : Int) + _ = _ + if _ ∧ wr x.s.lmN v rd v' = rd then 1 else 0
          have hC := cnt v'
          rw [push_sum hul, hq]
          have q1 : pushing v' (some (APc.cas v l vs es)) = 0 := rfl
          have q2 : pushing v' (some (APc.push v vs es)) = if v = v' then 1 else 0 := rfl
          rw [q1, q2]
          by_cases hvv : v' = v
          · subst hvv
            rw [if_neg (fun hh => hne hh.2)] at hC
            rw [if_pos rfl, if_pos ⟨hwk, wr_same _ _ _⟩]
            omega
          · simp only [wr_other _ _ hvv]
            rw [if_neg (Ne.symm hvv)]
            omega
      · have hrd : x.s.lmN v = rd := by
          rcases valN v with h | h
          · exact absurd (h.trans hl.symm) hc
          · exact h.1
        refine same _ (by simp [todoE]) (fun v' h => sV v' (by simp only [todoV] at h ⊢; simp [h])) trivial (fun e _ h => Or.inl h) ?_ (fun v => rfl)
        intro v' h
        simp only [todoV, List.mem_cons] at h ⊢
        rcases h with rfl | h
        · exact Or.inr hrd
        · exact Or.inl h
    · obtain ⟨hwk, hrd⟩ := oK
      simp only [nextA, Option.some.injEq, Prod.mk.injEq] at hs
      obtain ⟨rfl, rfl⟩ := hs
      refine ⟨valE, valN, pc_upd (P := fun i q => ∀ e ∈ todoE c A i q, ∃ m ∈ A, e ∈ c.H.inc m.node) (fun i hi _ => subE i hi) (fun e' he => sE e' he),
          pc_upd (P := fun i q => ∀ v ∈ todoV q, ∃ e, touched c rd A a0 e ∧ v ∈ c.H.pins e) (fun i hi _ => subV i hi) sV,
          pc_upd (P := fun i q => PcOk c rd A a0 _ q) (fun i hi _ => (ok i hi).mono (fun _ h => h)) trivial, ?_, ?_, ?_⟩
      · intro e he
        rcases allE e he with h | h
        · exact Or.inl h
        · refine keep (f := todoE c A) h (fun hh => Or.inl ?_)
          rw [hq] at hh; exact hh
      · intro e he hm v' hv
        rcases allV e he hm v' hv with h | h
        · exact Or.inl h
        · refine keep (f := fun _ => todoV) h (fun hh => Or.inl ?_)
          rw [hq] at hh; exact hh
      · intro v'
        show ((x.s.act ++ [v]).count v' : Int) + _ = _
        rw [push_sum hul, hq, ← cnt v', List.count_append, List.count_singleton]
        by_cases hvv : v = v'
        · subst hvv; simp [pushing]
        · simp [pushing, hvv]

open Classical in
/-- **Result of the activation**, for every schedule. -/
theorem activation_spec {rd : Nat} {A : List Mv} {a a' : ASt} (h : Par.For (nextM c rd A) (List.range A.length) none (some (.edges [])) a a') :
    (∀ e, a'.lmE e = if touched c rd A a e then rd else a.lmE e) ∧ (∀ v, a'.lmN v = if woken c rd A a v then rd else a.lmN v) ∧
    ∀ v, a'.act.count v = a.act.count v + if woken c rd A a v then 1 else 0 := by
  obtain ⟨pc, hI, hf⟩ := Par.For.of_inv (I := AInv c rd A a) (ainv_start rd A a) ainv_step h
  obtain ⟨valE, valN, subE, subV, ok, allE, allV, cnt⟩ := hI
  have hpc : ∀ i < A.length, pc i = some (.edges []) := fun i hi => hf i (List.mem_range.2 hi)
  have hE : ∀ e, touched c rd A a e → a'.lmE e = rd := by
    intro e he
    rcases allE e he with h | ⟨i, hi, hh⟩
    · exact h
    · simp only [hpc i hi, todoE] at hh; simp at hh
  have hN : ∀ v, woken c rd A a v → a'.lmN v = rd := by
    rintro v ⟨⟨e, he, hv⟩, _⟩
    rcases allV e he (hE e he) v hv with h | ⟨i, hi, hh⟩
    · exact h
    · simp only [hpc i hi, todoV] at hh; simp at hh
  refine ⟨?_, ?_, ?_⟩
  · intro e
    split_ifs with h
    · exact hE e h
    · exact (valE e).resolve_right (fun hh => h hh.2)
  · intro v
    split_ifs with h
    · exact hN v h
    · exact (valN v).resolve_right (fun hh => h hh.2)
  · intro v
    have h1 := cnt v
    have h0 : ((List.range A.length).map (fun i => pushing v (pc i))).sum = 0 := by
      apply DetC.sum_zero
      intro i hi
      rw [hpc i (List.mem_range.1 hi)]; rfl
    simp only [h0] at h1
    by_cases hw : woken c rd A a v
    · rw [if_pos ⟨hw, hN v hw⟩] at h1
      rw [if_pos hw]; omega
    · rw [if_neg (fun hh => hw hh.1)] at h1
      rw [if_neg hw]; omega

/-! ### The loop ends -/

def rankE (c : Cfg Γ) (es : List Nat) : Nat := (es.map (fun e => 3 + 3 * (c.H.pins e).length)).sum

def rankA (c : Cfg Γ) (A : List Mv) : Option APc → Nat
  | none => 1 + (A.map (fun m => rankE c (c.H.inc m.node))).sum
  | some (.edges es) => rankE c es
  | some (.mark e es) => 2 + 3 * (c.H.pins e).length + rankE c es
  | some (.pins vs es) => 1 + 3 * vs.length + rankE c es
  | some (.cas _ _ vs es) => 3 + 3 * vs.length + rankE c es
  | some (.push _ vs es) => 2 + 3 * vs.length + rankE c es

theorem activation_exists (rd : Nat) (A : List Mv) (a : ASt) : ∃ a', Par.For (nextM c rd A) (List.range A.length) none (some (.edges [])) a a' := by
  refine Par.For.exists (I := fun _ => True) (rankA c A) trivial (fun _ _ _ _ _ _ _ => trivial) ?_ ?_
  · intro x u p s' hu _ hs
    generalize x.pc u = q at hs
    rcases q with _ | q
    · simp only [nextM] at hs
      have hul := List.mem_range.1 hu
      have hA : A[u]? = some A[u] := List.getElem?_eq_getElem hul
      rw [hA] at hs
      simp only [Option.some.injEq, Prod.mk.injEq] at hs
      obtain ⟨rfl, rfl⟩ := hs
      have : rankE c (c.H.inc A[u].node) ≤ (A.map (fun m => rankE c (c.H.inc m.node))).sum :=
        List.le_sum_of_mem (List.mem_map.2 ⟨A[u], List.getElem_mem _, rfl⟩)
      simp only [rankA]; omega
    · rw [nextM, Option.map_eq_some_iff] at hs
      obtain ⟨⟨q', t⟩, hs, he⟩ := hs
      simp only [Prod.mk.injEq] at he
      obtain ⟨rfl, rfl⟩ := he
      rcases q with ⟨es⟩ | ⟨e, es⟩ | ⟨vs, es⟩ | ⟨v, l, vs, es⟩ | ⟨v, vs, es⟩
      · rcases es with _ | ⟨e, es⟩
        · simp [nextA] at hs
        · simp only [nextA] at hs
          split_ifs at hs <;> simp only [Option.some.injEq, Prod.mk.injEq] at hs <;> obtain ⟨rfl, rfl⟩ := hs <;>
            simp only [rankA, rankE, List.map_cons, List.sum_cons] <;> omega
      · simp only [nextA, Option.some.injEq, Prod.mk.injEq] at hs
        obtain ⟨rfl, rfl⟩ := hs
        simp only [rankA]; omega
      · rcases vs with _ | ⟨v, vs⟩
        · simp only [nextA, Option.some.injEq, Prod.mk.injEq] at hs
          obtain ⟨rfl, rfl⟩ := hs
          simp only [rankA, List.length_nil]; omega
        · simp only [nextA] at hs
          split_ifs at hs <;> simp only [Option.some.injEq, Prod.mk.injEq] at hs <;> obtain ⟨rfl, rfl⟩ := hs <;>
            simp only [rankA, List.length_cons] <;> omega
      · simp only [nextA] at hs
        split_ifs at hs <;> simp only [Option.some.injEq, Prod.mk.injEq] at hs <;> obtain ⟨rfl, rfl⟩ := hs <;>
          simp only [rankA] <;> omega
      · simp only [nextA, Option.some.injEq, Prod.mk.injEq] at hs
        obtain ⟨rfl, rfl⟩ := hs
        simp only [rankA]; omega
  · intro x u hu _ hne
    generalize x.pc u = q at hne
    rcases q with _ | q
    · simp [nextM, List.getElem?_eq_getElem (List.mem_range.1 hu)]
    · rcases q with ⟨es⟩ | ⟨e, es⟩ | ⟨vs, es⟩ | ⟨v, l, vs, es⟩ | ⟨v, vs, es⟩
      · rcases es with _ | ⟨e, es⟩
        · exact absurd rfl hne
        · simp only [nextM, nextA]; split_ifs <;> simp
      · simp [nextM, nextA]
      · rcases vs with _ | ⟨v, vs⟩
        · simp [nextM, nextA]
        · simp only [nextM, nextA]; split_ifs <;> simp
      · simp only [nextM, nextA]; split_ifs <;> simp
      · simp [nextM, nextA]

end DetLP
end Verif
