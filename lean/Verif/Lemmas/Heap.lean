import Verif.Lemmas.Maps
import Verif.Model.Heap
namespace Verif
open SMap (wr)

theorem DenseInv.perm {V : Type} {n : Nat} {d d' : Nat → Nat × V} {m : FMap V}
    (h : DenseInv n d m) (σ : Nat → Nat) (hσ : ∀ i < n, σ i < n) (hσσ : ∀ i < n, σ (σ i) = i)
    (hd : ∀ i < n, d' i = d (σ i)) : DenseInv n d' m := by
  refine ⟨fun i hi j hj hij => ?_, fun i hi => ?_, fun k v hk => ?_⟩
  · rw [hd i hi, hd j hj] at hij
    have := h.inj _ (hσ i hi) _ (hσ j hj) hij
    rw [← hσσ i hi, this, hσσ j hj]
  · rw [hd i hi]; exact h.sound _ (hσ i hi)
  · obtain ⟨i, hi, he⟩ := h.complete k v hk
    exact ⟨σ i, hσ i hi, by rw [hd _ (hσ i hi), hσσ i hi]; exact he⟩

theorem DenseInv.congr {V : Type} {n : Nat} {d d' : Nat → Nat × V} {m : FMap V}
    (h : DenseInv n d m) (hd : ∀ i < n, d' i = d i) : DenseInv n d' m :=
  h.perm id (fun _ h => h) (fun _ _ => rfl) hd

/-- a strict total order -/
structure StrictTotal {K : Type} (comp : K → K → Bool) : Prop where
  irrefl : ∀ a, comp a a = false
  trans : ∀ a b c, comp a b = true → comp b c = true → comp a c = true
  connex : ∀ a b, comp a b = false → comp b a = false → a = b

namespace StrictTotal
variable {K : Type} {comp : K → K → Bool}
theorem asymm (h : StrictTotal comp) {a b : K} (hab : comp a b = true) : comp b a = false := by
  cases hba : comp b a with
  | false => rfl
  | true => have := h.trans a b a hab hba; rw [h.irrefl] at this; simp at this

theorem ntrans (h : StrictTotal comp) {a b c : K} (hab : comp a b = false) (hbc : comp b c = false) :
    comp a c = false := by
  cases hac : comp a c with
  | false => rfl
  | true =>
    cases hba : comp b a with
    | true => have := h.trans b a c hba hac; rw [hbc] at this; simp at this
    | false => rw [h.connex a b hab hba, hbc] at hac; simp at hac

/-- `a < b` and not `a < c` gives not `b < c` -/
theorem left (h : StrictTotal comp) {a b c : K} (hab : comp a b = true) (hac : comp a c = false) :
    comp b c = false := by
  cases hbc : comp b c with
  | false => rfl
  | true => have := h.trans a b c hab hbc; rw [hac] at this; simp at this
end StrictTotal

namespace Heap
variable {K : Type} [DecidableEq K] {comp : K → K → Bool} {arity : Nat}

theorem parent_lt (ha : 1 < arity) {p : Nat} (hp : 0 < p) : parent arity p < p := by
  unfold parent
  have : (p - 1) / arity ≤ p - 1 := Nat.div_le_self _ _
  omega

theorem parent_child (ha : 1 < arity) {p c : Nat} (hc : 0 < c) :
    parent arity c = p ↔ firstChild arity p ≤ c ∧ c < firstChild arity (p + 1) := by
  unfold parent firstChild
  rw [Nat.div_eq_iff (by omega), Nat.succ_mul]
  constructor <;> intro h <;> omega

/-- heap order on the first `n` entries -/
def Ord (comp : K → K → Bool) (arity n : Nat) (V : Nat → Nat × K) : Prop :=
  ∀ i, 0 < i → i < n → comp (V (parent arity i)).2 (V i).2 = false

structure UpOk (comp : K → K → Bool) (arity n : Nat) (V : Nat → Nat × K) (p : Nat) : Prop where
  ord : ∀ i, 0 < i → i < n → i ≠ p → comp (V (parent arity i)).2 (V i).2 = false
  sib : ∀ c, 0 < c → c < n → parent arity c = p → 0 < p →
    comp (V (parent arity p)).2 (V c).2 = false

structure DownOk (comp : K → K → Bool) (arity n : Nat) (V : Nat → Nat × K) (p : Nat) : Prop where
  ord : ∀ i, 0 < i → i < n → parent arity i ≠ p → comp (V (parent arity i)).2 (V i).2 = false
  sib : ∀ c, 0 < c → c < n → parent arity c = p → 0 < p →
    comp (V (parent arity p)).2 (V c).2 = false

/-- contents and positions of the array with a hole at `p` (filled virtually with `x`) -/
structure Hole (n : Nat) (m : FMap K) (x : Nat × K) (h : Nat → Nat × K) (q : Nat → Nat) (p : Nat) :
    Prop where
  dense : DenseInv n (wr h p x) m
  pos : ∀ i < n, i ≠ p → q (wr h p x i).1 = i
  lt : p < n

theorem Hole.move {n : Nat} {m : FMap K} {x : Nat × K} {h : Nat → Nat × K} {q : Nat → Nat} {p r : Nat}
    (H : Hole n m x h q p) (hr : r < n) (hpr : r ≠ p) :
    Hole n m x (wr h p (h r)) (wr q (h r).1 p) r := by
  have hV : ∀ i, wr (wr h p (h r)) r x i = wr h p x (if i = r then p else if i = p then r else i) := by
    intro i
    by_cases h1 : i = r
    · rw [if_pos h1, h1, wr_same, wr_same]
    · rw [if_neg h1, wr_other _ _ h1]
      by_cases h2 : i = p
      · rw [if_pos h2, h2, wr_same, wr_other _ _ hpr]
      · rw [if_neg h2, wr_other _ _ h2, wr_other _ _ h2]
  have hlt := H.lt
  refine ⟨H.dense.perm (fun i => if i = r then p else if i = p then r else i) ?_ ?_
    (fun i _ => hV i), fun i hi hir => ?_, hr⟩
  · intro i hi; split
    · exact hlt
    · split <;> omega
  · intro i hi
    by_cases h1 : i = r
    · subst h1; simp [Ne.symm hpr]
    · by_cases h2 : i = p
      · subst h2; simp [h1]
      · simp [h1, h2]
  · rw [hV i, if_neg hir]
    by_cases h2 : i = p
    · rw [if_pos h2, wr_other _ _ hpr, wr_same, h2]
    · rw [if_neg h2, wr_other]
      · exact H.pos i hi h2
      · intro he
        have : (wr h p x i).1 = (wr h p x r).1 := by rw [he, wr_other _ _ hpr]
        exact hir (H.dense.inj i hi r hr this)

theorem swapV {h : Nat → Nat × K} {x : Nat × K} {p r : Nat} (hpr : r ≠ p) (i : Nat) :
    wr (wr h p (h r)) r x i = if i = r then x else if i = p then h r else h i := by
  by_cases h1 : i = r
  · rw [if_pos h1, h1, wr_same]
  · rw [if_neg h1, wr_other _ _ h1]
    by_cases h2 : i = p
    · rw [if_pos h2, h2, wr_same]
    · rw [if_neg h2, wr_other _ _ h2]

theorem siftUpLoop_ok (ho : StrictTotal comp) (ha : 1 < arity) {n : Nat} {m : FMap K} {id : Nat} {k : K} :
    ∀ (fuel : Nat) (h : Nat → Nat × K) (q : Nat → Nat) (p : Nat), p ≤ fuel →
    Hole n m (id, k) h q p → UpOk comp arity n (wr h p (id, k)) p →
    let r := siftUpLoop comp arity k fuel h q p
    Hole n m (id, k) r.1 r.2.1 r.2.2 ∧ Ord comp arity n (wr r.1 r.2.2 (id, k)) := by
  intro fuel
  induction fuel with
  | zero =>
    intro h q p hp H U
    refine ⟨H, fun i h1 h2 => U.ord i h1 h2 ?_⟩
    show i ≠ p
    omega
  | succ fuel ih =>
    intro h q p hp H U
    simp only [siftUpLoop]
    by_cases hc : p > 0 ∧ comp (h (parent arity p)).2 k = true
    · rw [if_pos hc]
      have hpl := parent_lt ha hc.1
      set r := parent arity p with hr
      have hrp : r ≠ p := by omega
      have hrn : r < n := by have := H.lt; omega
      refine ih _ _ r (by omega) (H.move hrn hrp) ?_
      have hVr : wr h p (id, k) r = h r := wr_other _ _ hrp
      have hVo : ∀ i, i ≠ p → wr h p (id, k) i = h i := fun i hi => wr_other _ _ hi
      refine ⟨fun i h1 h2 h3 => ?_, fun c h1 h2 h3 h4 => ?_⟩
      · rw [swapV hrp, swapV hrp, if_neg h3]
        by_cases hip : i = p
        · rw [if_pos hip, hip, ← hr, if_pos rfl]
          exact ho.asymm hc.2
        · rw [if_neg hip]
          have hold := U.ord i h1 h2 hip
          rw [hVo i hip] at hold
          by_cases hpi : parent arity i = r
          · rw [if_pos hpi]
            rw [hpi, hVr] at hold
            exact ho.left hc.2 hold
          · rw [if_neg hpi]
            by_cases hpi2 : parent arity i = p
            · rw [if_pos hpi2]
              have := U.sib i h1 h2 hpi2 hc.1
              rw [← hr, hVr, hVo i hip] at this
              exact this
            · rw [if_neg hpi2]
              rw [hVo _ hpi2] at hold
              exact hold
      · rw [swapV hrp, swapV hrp]
        have hgl := parent_lt ha h4
        rw [if_neg (by omega), if_neg (by omega)]
        have hcr : c ≠ r := by
          intro he
          have := parent_lt ha h1
          omega
        rw [if_neg hcr]
        have hold := U.ord r h4 hrn hrp
        rw [hVr, hVo _ (by omega)] at hold
        by_cases hcp : c = p
        · rw [if_pos hcp]; exact hold
        · rw [if_neg hcp]
          have := U.ord c h1 h2 hcp
          rw [h3, hVr, hVo c hcp] at this
          exact ho.ntrans hold this
    · rw [if_neg hc]
      refine ⟨H, fun i h1 h2 => ?_⟩
      show comp (wr h p (id, k) (parent arity i)).2 (wr h p (id, k) i).2 = false
      by_cases hip : i = p
      · rw [hip, wr_same, wr_other _ _ (by have := parent_lt ha (show 0 < p by omega); omega)]
        have : ¬ comp (h (parent arity p)).2 k = true := fun h' => hc ⟨by omega, h'⟩
        simpa using this
      · exact U.ord i h1 h2 hip

/-- the abstraction relation -/
structure Inv (comp : K → K → Bool) (arity : Nat) (s : Heap K) (m : FMap K) : Prop where
  dense : DenseInv s.size s.heap m
  pos : ∀ i < s.size, s.pos (s.heap i).1 = i
  ord : Ord comp arity s.size s.heap

theorem Hole.close {n : Nat} {m : FMap K} {x : Nat × K} {h : Nat → Nat × K} {q : Nat → Nat} {p : Nat}
    (H : Hole n m x h q p) (ho : Ord comp arity n (wr h p x)) :
    Inv comp arity ⟨n, wr h p x, wr q x.1 p⟩ m := by
  refine ⟨H.dense, fun i hi => ?_, ho⟩
  simp only at hi ⊢
  by_cases hip : i = p
  · rw [hip, wr_same, wr_same]
  · rw [wr_other]
    · exact H.pos i hi hip
    · intro he
      exact hip (H.dense.inj i hi p H.lt (by rw [he, wr_same]))

theorem siftUp_ok (ho : StrictTotal comp) (ha : 1 < arity) {s : Heap K} {m : FMap K} {p : Nat}
    (hp : p < s.size) (hd : DenseInv s.size s.heap m)
    (hpos : ∀ i < s.size, i ≠ p → s.pos (s.heap i).1 = i)
    (hu : UpOk comp arity s.size s.heap p) : (s.siftUp comp arity p).Inv comp arity m := by
  have hself : wr s.heap p ((s.heap p).1, (s.heap p).2) = s.heap := by
    funext i; unfold wr; split
    · next h => rw [h]
    · rfl
  obtain ⟨h1, h2⟩ := siftUpLoop_ok (n := s.size) (m := m) (id := (s.heap p).1) (k := (s.heap p).2) ho ha
    p s.heap s.pos p (le_refl _) ⟨by rw [hself]; exact hd, by rw [hself]; exact hpos, hp⟩
    (by rw [hself]; exact hu)
  exact h1.close h2

theorem largestChild_ok (ho : StrictTotal comp) (ha : 1 < arity) (h : Nat → Nat × K) {n p : Nat}
    (hf : firstChild arity p < n) :
    let l := largestChild comp arity h n p
    (parent arity l = p ∧ 0 < l ∧ l < n) ∧
    ∀ c, 0 < c → c < n → parent arity c = p → comp (h l).2 (h c).2 = false := by
  have hfc : firstChild arity (p + 1) = firstChild arity p + arity := by
    unfold firstChild; rw [Nat.succ_mul]; omega
  have hf0 : 0 < firstChild arity p := by unfold firstChild; omega
  simp only [largestChild]
  by_cases ha2 : arity > 2
  · rw [if_pos ha2]
    set f := firstChild arity p with hfdef
    have key : ∀ j, f + 1 + j ≤ min n (firstChild arity (p + 1)) →
        let st := (List.range' (f + 1) j).foldl (fun (st : Nat × K) c =>
          if comp st.2 (h c).2 = true then (c, (h c).2) else st) (f, (h f).2)
        f ≤ st.1 ∧ st.1 < f + 1 + j ∧ st.2 = (h st.1).2 ∧
        ∀ c, f ≤ c → c < f + 1 + j → comp st.2 (h c).2 = false := by
      intro j
      induction j with
      | zero =>
        intro _
        refine ⟨le_refl _, by simp, rfl, fun c h1 h2 => ?_⟩
        have : c = f := by omega
        simp only [List.range'_zero, List.foldl_nil]
        rw [this]; exact ho.irrefl _
      | succ j ih =>
        intro hj
        obtain ⟨h1, h2, h3, h4⟩ := ih (by omega)
        rw [List.range'_concat, List.foldl_append]
        simp only [List.foldl_cons, List.foldl_nil, Nat.one_mul]
        set st := (List.range' (f + 1) j).foldl (fun (st : Nat × K) c =>
          if comp st.2 (h c).2 = true then (c, (h c).2) else st) (f, (h f).2)
        by_cases hcmp : comp st.2 (h (f + 1 + j)).2 = true
        · rw [if_pos hcmp]
          refine ⟨by simp only; omega, by simp only; omega, rfl, fun c h5 h6 => ?_⟩
          by_cases hcj : c = f + 1 + j
          · rw [hcj]; exact ho.irrefl _
          · exact ho.left hcmp (h4 c h5 (by omega))
        · rw [if_neg hcmp]
          refine ⟨h1, by omega, h3, fun c h5 h6 => ?_⟩
          by_cases hcj : c = f + 1 + j
          · rw [hcj]; simpa using hcmp
          · exact h4 c h5 (by omega)
    obtain ⟨h1, h2, h3, h4⟩ := key (min n (firstChild arity (p + 1)) - (f + 1)) (by omega)
    have heq : f + 1 + (min n (firstChild arity (p + 1)) - (f + 1)) = min n (firstChild arity (p + 1)) := by
      omega
    rw [heq] at h2 h4
    refine ⟨⟨(parent_child ha (by omega)).2 ⟨h1, by omega⟩, by omega, by omega⟩, fun c h5 h6 h7 => ?_⟩
    rw [← h3]
    have := (parent_child ha h5).1 h7
    exact h4 c this.1 (by omega)
  · rw [if_neg ha2]
    have ha' : arity = 2 := by omega
    set f := firstChild arity p with hfdef
    have hch : ∀ c, 0 < c → c < n → parent arity c = p → c = f ∨ c = min (f + 1) (n - 1) := by
      intro c h1 h2 h3
      have := (parent_child ha h1).1 h3
      omega
    have hpf : parent arity f = p := (parent_child ha (by omega)).2 ⟨le_refl _, by omega⟩
    by_cases hcmp : comp (h f).2 (h (min (f + 1) (n - 1))).2 = true
    · rw [if_pos hcmp]
      refine ⟨⟨(parent_child ha (by omega)).2 ⟨by omega, by omega⟩, by omega, by omega⟩,
        fun c h1 h2 h3 => ?_⟩
      rcases hch c h1 h2 h3 with hc | hc
      · rw [hc]; exact ho.asymm hcmp
      · rw [hc]; exact ho.irrefl _
    · rw [if_neg hcmp]
      refine ⟨⟨hpf, by omega, hf⟩, fun c h1 h2 h3 => ?_⟩
      rcases hch c h1 h2 h3 with hc | hc
      · rw [hc]; exact ho.irrefl _
      · rw [hc]; simpa using hcmp

theorem siftDownLoop_ok (ho : StrictTotal comp) (ha : 1 < arity) {n : Nat} {m : FMap K} {id : Nat} {k : K} :
    ∀ (fuel : Nat) (h : Nat → Nat × K) (q : Nat → Nat) (p : Nat), n ≤ fuel + p →
    Hole n m (id, k) h q p → DownOk comp arity n (wr h p (id, k)) p →
    let r := siftDownLoop comp arity n k fuel h q p
    Hole n m (id, k) r.1 r.2.1 r.2.2 ∧ Ord comp arity n (wr r.1 r.2.2 (id, k)) ∧
      p ≤ r.2.2 ∧ (r.2.2 = p → r.1 = h ∧ r.2.1 = q) := by
  intro fuel
  induction fuel with
  | zero =>
    intro h q p hp H U
    have := H.lt
    omega
  | succ fuel ih =>
    intro h q p hp H U
    simp only [siftDownLoop]
    have hVo : ∀ i, i ≠ p → wr h p (id, k) i = h i := fun i hi => wr_other _ _ hi
    have hfp : firstChild arity p ≠ p ∧ p < firstChild arity p := by
      unfold firstChild
      have : p ≤ p * arity := Nat.le_mul_of_pos_right _ (by omega)
      omega
    by_cases hf : firstChild arity p < n
    · rw [if_pos ⟨hf, hfp.1⟩]
      obtain ⟨⟨hl1, hl2, hl3⟩, hl4⟩ := largestChild_ok ho ha h hf
      set l := largestChild comp arity h n p with hldef
      have hlp : p < l := by have := parent_lt ha hl2; omega
      by_cases hb : comp (h l).2 k = true ∨ (h l).2 = k
      · rw [if_pos hb]
        refine ⟨H, fun i h1 h2 => ?_, le_refl _, fun _ => ⟨rfl, rfl⟩⟩
        show comp (wr h p (id, k) (parent arity i)).2 (wr h p (id, k) i).2 = false
        by_cases hpi : parent arity i = p
        · have hip : i ≠ p := by have := parent_lt ha h1; omega
          rw [hpi, wr_same, hVo i hip]
          have := hl4 i h1 h2 hpi
          rcases hb with hb | hb
          · exact ho.left hb this
          · rw [← hb]; exact this
        · exact U.ord i h1 h2 hpi
      · rw [if_neg hb]
        have hlne : l ≠ p := by omega
        have hlk : comp (h l).2 k = false := by
          cases hx : comp (h l).2 k with
          | false => rfl
          | true => exact absurd (Or.inl hx) hb
        obtain ⟨h5, h6, h7, h8⟩ := ih (wr h p (h l)) (wr q (h l).1 p) l (by omega) (H.move hl3 hlne) (by
          refine ⟨fun i h1 h2 h3 => ?_, fun c h1 h2 h3 h4 => ?_⟩
          · rw [swapV hlne, swapV hlne, if_neg h3]
            by_cases hil : i = l
            · rw [if_pos hil, hil, hl1, if_pos rfl]
              exact hlk
            · rw [if_neg hil]
              by_cases hip : i = p
              · have hip0 : 0 < p := by omega
                rw [if_pos hip, hip, if_neg (by have := parent_lt ha hip0; omega)]
                have := U.sib l hl2 hl3 hl1 hip0
                rw [hVo l hlne, hVo _ (by have := parent_lt ha hip0; omega)] at this
                exact this
              · rw [if_neg hip]
                by_cases hpi : parent arity i = p
                · rw [if_pos hpi]
                  exact hl4 i h1 h2 hpi
                · rw [if_neg hpi]
                  have := U.ord i h1 h2 hpi
                  rw [hVo i hip, hVo _ hpi] at this
                  exact this
          · rw [hl1, swapV hlne, swapV hlne, if_neg (Ne.symm hlne), if_pos rfl]
            have hcl : c ≠ l := by have := parent_lt ha h1; omega
            have hcp : c ≠ p := by have := parent_lt ha h1; omega
            rw [if_neg hcl, if_neg hcp]
            have := U.ord c h1 h2 (by omega)
            rw [h3, hVo l hlne, hVo c hcp] at this
            exact this)
        refine ⟨h5, h6, by omega, fun he => by omega⟩
    · rw [if_neg (fun hc => hf hc.1)]
      refine ⟨H, fun i h1 h2 => ?_, le_refl _, fun _ => ⟨rfl, rfl⟩⟩
      refine U.ord i h1 h2 (fun hpi => ?_)
      have := (parent_child ha h1).1 hpi
      omega

theorem siftDown_ok (ho : StrictTotal comp) (ha : 1 < arity) {s : Heap K} {m : FMap K} {p : Nat}
    (hp : p < s.size) (hd : DenseInv s.size s.heap m)
    (hpos : ∀ i < s.size, s.pos (s.heap i).1 = i)
    (hu : DownOk comp arity s.size s.heap p) : (s.siftDown comp arity p).Inv comp arity m := by
  have hself : wr s.heap p ((s.heap p).1, (s.heap p).2) = s.heap := by
    funext i; unfold wr; split
    · next h => rw [h]
    · rfl
  obtain ⟨h1, h2, h3, h4⟩ := siftDownLoop_ok (n := s.size) (m := m) (id := (s.heap p).1)
    (k := (s.heap p).2) ho ha s.size s.heap s.pos p (by omega)
    ⟨by rw [hself]; exact hd, fun i hi _ => by rw [hself]; exact hpos i hi, hp⟩
    (by rw [hself]; exact hu)
  unfold siftDown
  simp only
  split
  · exact h1.close h2
  · next hne =>
    have heq : (siftDownLoop comp arity s.size (s.heap p).2 s.size s.heap s.pos p).2.2 = p := by
      simpa using hne
    obtain ⟨e1, e2⟩ := h4 heq
    rw [heq, e1, hself] at h2
    rw [e1, e2]
    exact ⟨hd, hpos, h2⟩

theorem Inv.idx {s : Heap K} {m : FMap K} (h : s.Inv comp arity m) {e : Nat} {k : K}
    (hk : m e = some k) : s.pos e < s.size ∧ s.heap (s.pos e) = (e, k) := by
  obtain ⟨i, hi, he⟩ := h.dense.complete e k hk
  have hb := h.pos i hi
  rw [he] at hb
  rw [hb]
  have := h.dense.sound i hi
  rw [he, hk] at this
  exact ⟨hi, Prod.ext he (Option.some.inj this).symm⟩

theorem Inv.contains_iff {s : Heap K} {m : FMap K} (h : s.Inv comp arity m) (e : Nat) :
    s.contains e = (m e).isSome := by
  unfold contains
  cases hk : m e with
  | none =>
    simp only [Option.isSome_none, Bool.and_eq_false_iff, decide_eq_false_iff_not]
    by_contra hc
    push Not at hc
    have := h.dense.sound _ hc.1
    rw [hc.2, hk] at this; simp at this
  | some v =>
    obtain ⟨h1, h2⟩ := h.idx hk
    simp [h1, h2]

theorem Inv.top_max (ho : StrictTotal comp) (ha : 1 < arity) {s : Heap K} {m : FMap K}
    (h : s.Inv comp arity m) : ∀ i < s.size, comp (s.heap 0).2 (s.heap i).2 = false := by
  intro i
  induction i using Nat.strongRecOn with
  | _ i ih =>
    intro hi
    by_cases hi0 : i = 0
    · rw [hi0]; exact ho.irrefl _
    · have hp := parent_lt ha (Nat.pos_of_ne_zero hi0)
      exact ho.ntrans (ih _ hp (by omega)) (h.ord i (Nat.pos_of_ne_zero hi0) hi)

/-- dropping entry `p` by overwriting it with the last one -/
theorem dense_drop {n : Nat} {d : Nat → Nat × K} {m : FMap K} (h : DenseInv n d m) {p : Nat} (hp : p < n) :
    DenseInv (n - 1) (wr d p (d (n - 1))) (fun x => if x = (d p).1 then none else m x) := by
  have hD : ∀ i < n - 1, wr d p (d (n - 1)) i = if i = p then d (n - 1) else d i := fun i _ => rfl
  have hkey : ∀ i < n, i ≠ p → (d i).1 ≠ (d p).1 := fun i hi hip he => hip (h.inj i hi p hp he)
  refine ⟨fun a ha b hb hab => ?_, fun a ha => ?_, fun x v hx => ?_⟩
  · rw [hD a ha, hD b hb] at hab
    split at hab <;> split at hab
    · omega
    · have := h.inj _ (by omega) _ (by omega) hab; omega
    · have := h.inj _ (by omega) _ (by omega) hab; omega
    · exact h.inj _ (by omega) _ (by omega) hab
  · rw [hD a ha]
    split
    · rw [if_neg (hkey _ (by omega) (by omega))]; exact h.sound _ (by omega)
    · next hn => rw [if_neg (hkey _ (by omega) hn)]; exact h.sound _ (by omega)
  · by_cases hxk : x = (d p).1
    · simp [hxk] at hx
    · simp only [hxk, if_false] at hx
      obtain ⟨i, hi, he⟩ := h.complete x v hx
      have hip : i ≠ p := by intro hip; rw [hip] at he; exact hxk he.symm
      by_cases hil : i = n - 1
      · exact ⟨p, by omega, by rw [hD p (by omega), if_pos rfl, ← hil]; exact he⟩
      · exact ⟨i, by omega, by rw [hD i (by omega), if_neg hip]; exact he⟩

/-- the heap order survives removing the last entry -/
theorem Ord.mono {n n' : Nat} {V : Nat → Nat × K} (h : Ord comp arity n V) (hn : n' ≤ n) :
    Ord comp arity n' V := fun i h1 h2 => h i h1 (by omega)

theorem Inv.deleteTop (ho : StrictTotal comp) (ha : 1 < arity) (inv : Nat) {s : Heap K} {m : FMap K}
    (h : s.Inv comp arity m) (hs : 0 < s.size) :
    (s.deleteTop comp arity inv).Inv comp arity (fun x => if x = s.top then none else m x) := by
  have hd := dense_drop h.dense hs
  unfold Heap.deleteTop
  simp only
  by_cases h1 : s.size - 1 = 0
  · rw [if_neg (by simpa using h1)]
    refine ⟨hd, fun i hi => ?_, fun i h2 h3 => ?_⟩
    · simp only at hi; omega
    · simp only at h3; omega
  · rw [if_pos (by simpa using h1)]
    refine siftDown_ok ho ha (by simp only; omega) hd (fun i hi => ?_) ⟨fun i h2 h3 h4 => ?_, ?_⟩
    · simp only at hi ⊢
      by_cases hi0 : i = 0
      · rw [hi0, wr_same, wr_same]
      · have hne : ∀ j < s.size, i ≠ j → (s.heap i).1 ≠ (s.heap j).1 := fun j hj hij he =>
          hij (h.dense.inj i (by omega) j hj he)
        rw [wr_other _ _ hi0, wr_other _ _ (hne _ (by omega) (by omega)),
          wr_other _ _ (hne 0 hs hi0)]
        exact h.pos i (by omega)
    · simp only at h3 ⊢
      rw [wr_other _ _ h4, wr_other _ _ (by omega)]
      exact h.ord i h2 (by omega)
    · intro c h2 h3 h4 h5; omega

theorem Inv.insert (ho : StrictTotal comp) (ha : 1 < arity) {s : Heap K} {m : FMap K}
    (h : s.Inv comp arity m) {e : Nat} (he : m e = none) (k : K) :
    (s.insert comp arity e k).Inv comp arity (fun x => if x = e then some k else m x) := by
  unfold Heap.insert
  have hne : ∀ i < s.size, (s.heap i).1 ≠ e := fun i hi hc => by
    have := h.dense.sound i hi; rw [hc, he] at this; simp at this
  refine siftUp_ok ho ha (by simp) (h.dense.push he k) (fun i hi hip => ?_)
    ⟨fun i h1 h2 h3 => ?_, fun c h1 h2 h3 h4 => ?_⟩
  · simp only at hi hip ⊢
    rw [wr_other _ _ hip, wr_other _ _ (hne i (by omega))]
    exact h.pos i (by omega)
  · simp only at h2 ⊢
    have := parent_lt ha h1
    rw [wr_other _ _ h3, wr_other _ _ (by omega)]
    exact h.ord i h1 (by omega)
  · simp only at h2
    have := parent_lt ha h1
    omega

theorem Inv.remove (ho : StrictTotal comp) (ha : 1 < arity) (inv : Nat) {s : Heap K} {m : FMap K}
    (h : s.Inv comp arity m) {e : Nat} (he : (m e).isSome) :
    (s.remove comp arity inv e).Inv comp arity (fun x => if x = e then none else m x) := by
  obtain ⟨k, hk⟩ := Option.isSome_iff_exists.1 he
  obtain ⟨hp, hpe⟩ := h.idx hk
  have hd := dense_drop h.dense hp
  rw [show (s.heap (s.pos e)).1 = e by rw [hpe]] at hd
  unfold Heap.remove
  simp only
  set p := s.pos e with hpdef
  by_cases hlast : p = s.size - 1
  · rw [if_pos hlast]
    refine ⟨hd, fun i hi => ?_, fun i h2 h3 => ?_⟩
    · simp only at hi ⊢
      have hne : ∀ j < s.size, i ≠ j → (s.heap i).1 ≠ (s.heap j).1 := fun j hj hij he =>
          hij (h.dense.inj i (by omega) j hj he)
      have h5 := hne p hp (by omega)
      rw [hpe] at h5
      have hip : i ≠ p := by omega
      rw [wr_other s.heap _ hip, wr_other _ _ h5, wr_other _ _ (hne _ (by omega) (by omega))]
      exact h.pos i (by omega)
    · simp only at h3 ⊢
      have := parent_lt ha h2
      rw [wr_other _ _ (by omega), wr_other _ _ (by omega)]
      exact h.ord i h2 (by omega)
  · rw [if_neg hlast]
    have hpos : ∀ i < s.size - 1,
        (wr (wr s.pos (s.heap (s.size - 1)).1 p) e inv) (wr s.heap p (s.heap (s.size - 1)) i).1 = i := by
      intro i hi
      have hne : ∀ i < s.size, i ≠ p → (s.heap i).1 ≠ e := fun i hi hip hc =>
          hip (h.dense.inj i (by omega) p hp (by rw [hc, hpe]))
      by_cases hip : i = p
      · rw [hip, wr_same, wr_other _ _ (hne _ (by omega) (Ne.symm hlast)), wr_same]
      · rw [wr_other _ _ hip, wr_other _ _ (hne i (by omega) hip), wr_other]
        · exact h.pos i (by omega)
        · intro hc
          have := h.dense.inj i (by omega) _ (by omega) hc
          omega
    have hVo : ∀ i, i ≠ p → wr s.heap p (s.heap (s.size - 1)) i = s.heap i := fun i hi => wr_other _ _ hi
    have hVp : wr s.heap p (s.heap (s.size - 1)) p = s.heap (s.size - 1) := wr_same _ _ _
    have hsib : ∀ c, 0 < c → c < s.size - 1 → parent arity c = p → 0 < p →
        comp (wr s.heap p (s.heap (s.size - 1)) (parent arity p)).2
          (wr s.heap p (s.heap (s.size - 1)) c).2 = false := by
      intro c h1 h2 h3 h4
      have h5 := parent_lt ha h4
      have h6 := parent_lt ha h1
      rw [hVo _ (by omega), hVo c (by omega)]
      have h7 := h.ord c h1 (by omega)
      rw [h3] at h7
      exact ho.ntrans (h.ord p h4 hp) h7
    by_cases hcmp : comp (s.heap p).2 (s.heap (s.size - 1)).2 = true
    · rw [if_pos hcmp]
      refine siftUp_ok ho ha (by simp only; omega) hd (fun i hi _ => hpos i hi)
        ⟨fun i h1 h2 h3 => ?_, hsib⟩
      simp only at h2 ⊢
      rw [hVo i h3]
      by_cases hpi : parent arity i = p
      · rw [hpi, hVp]
        have := h.ord i h1 (by omega)
        rw [hpi] at this
        exact ho.left hcmp this
      · rw [hVo _ hpi]; exact h.ord i h1 (by omega)
    · rw [if_neg hcmp]
      have hcmp' : comp (s.heap p).2 (s.heap (s.size - 1)).2 = false := by simpa using hcmp
      refine siftDown_ok ho ha (by simp only; omega) hd hpos ⟨fun i h1 h2 h3 => ?_, hsib⟩
      simp only at h2 ⊢
      rw [hVo _ h3]
      by_cases hip : i = p
      · rw [hip, hVp]
        exact ho.ntrans (h.ord p (by omega) hp) hcmp'
      · rw [hVo _ hip]; exact h.ord i h1 (by omega)

theorem Inv.increaseKey (ho : StrictTotal comp) (ha : 1 < arity) {s : Heap K} {m : FMap K}
    (h : s.Inv comp arity m) {e : Nat} {k k' : K} (he : m e = some k) (hk : comp k' k = false) :
    (s.increaseKey comp arity e k').Inv comp arity (fun x => if x = e then some k' else m x) := by
  obtain ⟨hp, hpe⟩ := h.idx he
  have hd := h.dense.write hp k'
  rw [hpe] at hd
  unfold Heap.increaseKey
  simp only
  rw [hpe]
  set p := s.pos e with hpdef
  have hVo : ∀ i, i ≠ p → wr s.heap p (e, k') i = s.heap i := fun i hi => wr_other _ _ hi
  have hV1 : ∀ i, (wr s.heap p (e, k') i).1 = (s.heap i).1 := fun i => by
    by_cases hi : i = p
    · rw [hi, wr_same, hpe]
    · rw [hVo i hi]
  refine siftUp_ok ho ha hp hd (fun i hi _ => ?_) ⟨fun i h1 h2 h3 => ?_, fun c h1 h2 h3 h4 => ?_⟩
  · simp only at hi ⊢; rw [hV1]; exact h.pos i hi
  · simp only at h2 ⊢
    rw [hVo i h3]
    have hold := h.ord i h1 h2
    by_cases hpi : parent arity i = p
    · rw [hpi, wr_same]
      rw [hpi, hpe] at hold
      exact ho.ntrans hk hold
    · rw [hVo _ hpi]; exact hold
  · simp only at h2 ⊢
    have h5 := parent_lt ha h4
    have h6 := parent_lt ha h1
    rw [hVo _ (by omega), hVo c (by omega)]
    have h7 := h.ord c h1 h2
    rw [h3] at h7
    exact ho.ntrans (h.ord p h4 hp) h7

theorem Inv.decreaseKey (ho : StrictTotal comp) (ha : 1 < arity) {s : Heap K} {m : FMap K}
    (h : s.Inv comp arity m) {e : Nat} {k k' : K} (he : m e = some k) (hk : comp k k' = false) :
    (s.decreaseKey comp arity e k').Inv comp arity (fun x => if x = e then some k' else m x) := by
  obtain ⟨hp, hpe⟩ := h.idx he
  have hd := h.dense.write hp k'
  rw [hpe] at hd
  unfold Heap.decreaseKey
  simp only
  rw [hpe]
  set p := s.pos e with hpdef
  have hVo : ∀ i, i ≠ p → wr s.heap p (e, k') i = s.heap i := fun i hi => wr_other _ _ hi
  have hV1 : ∀ i, (wr s.heap p (e, k') i).1 = (s.heap i).1 := fun i => by
    by_cases hi : i = p
    · rw [hi, wr_same, hpe]
    · rw [hVo i hi]
  refine siftDown_ok ho ha hp hd (fun i hi => ?_) ⟨fun i h1 h2 h3 => ?_, fun c h1 h2 h3 h4 => ?_⟩
  · simp only at hi ⊢; rw [hV1]; exact h.pos i hi
  · simp only at h2 ⊢
    rw [hVo _ h3]
    have hold := h.ord i h1 h2
    by_cases hip : i = p
    · rw [hip, wr_same]
      rw [hip, hpe] at hold
      exact ho.ntrans hold hk
    · rw [hVo _ hip]; exact hold
  · simp only at h2 ⊢
    have h5 := parent_lt ha h4
    have h6 := parent_lt ha h1
    rw [hVo _ (by omega), hVo c (by omega)]
    have h7 := h.ord c h1 h2
    rw [h3] at h7
    exact ho.ntrans (h.ord p h4 hp) h7

theorem Inv.adjustKey (ho : StrictTotal comp) (ha : 1 < arity) {s : Heap K} {m : FMap K}
    (h : s.Inv comp arity m) {e : Nat} {k' : K} (he : (m e).isSome) :
    (s.adjustKey comp arity e k').Inv comp arity (fun x => if x = e then some k' else m x) := by
  obtain ⟨k, hk⟩ := Option.isSome_iff_exists.1 he
  obtain ⟨hp, hpe⟩ := h.idx hk
  unfold Heap.adjustKey
  simp only [hpe]
  split
  · next h1 => exact h.increaseKey ho ha hk (ho.asymm h1)
  · next h1 =>
    split
    · exact h.decreaseKey ho ha hk (by simpa using h1)
    · next h2 =>
      have : k = k' := ho.connex _ _ (by simpa using h1) (by simpa using h2)
      have hm : (fun x => if x = e then some k' else m x) = m := by
        funext x; split
        · next hx => rw [hx, hk, this]
        · rfl
      rw [hm]; exact h

end Heap
end Verif
