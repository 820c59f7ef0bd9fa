import Verif.Model.DeltaPartition
import Verif.Lemmas.HashMaps
import Verif.Lemmas.PHG
import Verif.Lemmas.ConcurrentCache
import Verif.Lemmas.GainInit
/-! Delta partition: auxiliary lemmas -/
namespace Verif

/-- the flat map `s` represents the plain map `m` -/
def FlatMap.Good {V : Type} (s : FlatMap V) (m : FMap V) : Prop := (∃ c, s.Inv c m) ∧ s.size < s.cap

theorem FlatMap.Good.create {V : Type} (c : Nat) (d : V) : (FlatMap.create c d).Good (fun _ => none) :=
  ⟨⟨c, FlatMap.Inv.createRaw c d (2 ^ c) rfl⟩, Nat.two_pow_pos c⟩

theorem FlatMap.Good.modify {V : Type} {s : FlatMap V} {m : FMap V} (h : s.Good m) (d : V) (key : Nat) (g : V → V) :
    ∃ s', s.modify d key g = some s' ∧ s'.Good (fun x => if x = key then some (g ((m key).getD d)) else m x) := by
  obtain ⟨⟨c, hc⟩, hs⟩ := h
  obtain ⟨c', s', h1, h2, h3⟩ := hc.exec (d := d) (k := key) (g := g) hs
  exact ⟨s', h1, ⟨c', h2⟩, h3⟩

theorem FlatMap.Good.get {V : Type} {s : FlatMap V} {m : FMap V} (h : s.Good m) (key : Nat) :
    s.getIfContained key = some (m key) := by
  obtain ⟨⟨c, hc⟩, hs⟩ := h
  exact (hc.query hs key).2

theorem FlatMap.Good.clear {V : Type} {s : FlatMap V} {m : FMap V} (h : s.Good m) : s.clear.Good (fun _ => none) := by
  obtain ⟨⟨c, hc⟩, hs⟩ := h
  exact ⟨⟨c, hc.clear⟩, Nat.lt_of_le_of_lt (Nat.zero_le _) hs⟩

theorem pcIdx_inj {m k e e' p p' : Nat} (hmk : m * k ≤ 2 ^ 32) (he : e < m) (he' : e' < m) (hp : p < k) (hp' : p' < k)
    (h : pcIdx k e p = pcIdx k e' p') : e = e' ∧ p = p' := by
  have hlt : ∀ {e p}, e < m → p < k → e * k + p < 2 ^ 32 := by
    intro e p he hp
    have : (e + 1) * k ≤ m * k := Nat.mul_le_mul_right _ he
    rw [Nat.succ_mul] at this; omega
  unfold pcIdx at h
  rw [Nat.mod_eq_of_lt (hlt he hp), Nat.mod_eq_of_lt (hlt he' hp')] at h
  have hk : 0 < k := by omega
  have h1 : (e * k + p) / k = (e' * k + p') / k := by rw [h]
  rw [Nat.add_comm, Nat.add_mul_div_right _ _ hk, Nat.add_comm (e' * k), Nat.add_mul_div_right _ _ hk,
    Nat.div_eq_of_lt hp, Nat.div_eq_of_lt hp'] at h1
  have : e = e' := by omega
  subst this
  exact ⟨rfl, by omega⟩

/-- Law of the words of the shared connectivity set. -/
structure ConWords.Lawful {σ : Type} {C : ConInfo σ} {m k mx : Nat} (W : ConWords σ) (L : C.Lawful m k mx) : Prop where
  bit : ∀ {s T e}, L.R s T → e < m → ∀ p, p < numWords k * 64 → wbit (W s e) p = decide (p < k ∧ 0 < T e p)

theorem numWords_le (k : Nat) : k ≤ numWords k * 64 := ConnSets.init_blocks_le k

theorem denseWords_lawful (m k mx : Nat) : denseWords.Lawful (denseLawful m k mx) where
  bit := by
    intro s T e h he p hp
    have hb : s.2.blocks = numWords k := h.2.1
    have h1 := ConnSets.contains_eq s.2 e p
    have h2 : wbit (denseWords s e) p = s.2.contains e p := by rw [h1]; rfl
    rw [h2]
    by_cases hpk : p < k
    · rw [h.2.2.1 e p he hpk]; simp [hpk]
    · rw [h.2.2.2 e p he (by omega) (by rw [hb]; omega)]; simp [hpk]

theorem wbit_setBit (w : Nat → BitVec 64) (b p : Nat) : wbit (setBit w b) p = (wbit w p || decide (p = b)) := by
  have hm : b % 64 < 64 := Nat.mod_lt _ (by decide)
  unfold wbit setBit
  split
  · rename_i h
    rw [BitVec.getLsbD_or, ConnSets.one_shl_bit _ _ hm]
    congr 1
    by_cases hp : p = b
    · subst hp; simp
    · have : p % 64 ≠ b % 64 := by omega
      simp [hp, this]
  · rename_i h
    have : p ≠ b := by rintro rfl; exact h rfl
    simp [this]

theorem wbit_setBits (l : List Nat) (w : Nat → BitVec 64) (p : Nat) :
    wbit (l.foldl setBit w) p = (wbit w p || decide (p ∈ l)) := by
  induction l generalizing w with
  | nil => simp
  | cons a l ih =>
    rw [List.foldl_cons, ih, wbit_setBit]
    simp [Bool.or_assoc]

theorem sparseWords_lawful (m k mx : Nat) : sparseWords.Lawful (sparseLawful m k mx) where
  bit := by
    intro s T e h he p hp
    have hm := (sparseLawful m k mx).connSet_mem h he p
    have : wbit (sparseWords s e) p = decide (p ∈ sparseCon.connSet s e) := by
      unfold sparseWords
      rw [wbit_setBits]
      have h0 : wbit (fun _ => (0 : BitVec 64)) p = false := by simp [wbit]
      rw [h0, Bool.false_or]; rfl
    rw [this]
    exact decide_eq_decide.2 hm

namespace DPHG
variable {σ : Type} {C : ConInfo σ} {W : ConWords σ} {H : HG} {m k mx : Nat} {o : Metrics.Obj} {P : PHG σ}

/-- pin count deltas, against a table of pin counts -/
def PcOK (C : ConInfo σ) (H : HG) (k : Nat) (P : PHG σ) (T : Nat → Nat → Nat) (s : FlatMap Int) : Prop :=
  ∃ mp, s.Good mp ∧ ∀ e ∈ H.edges, ∀ b, b < k →
    (C.pinCount P.con e b : Int) + (mp (pcIdx k e b)).getD 0 = T e b

/-- connectivity set deltas -/
def ConOK (W : ConWords σ) (H : HG) (k : Nat) (P : PHG σ) (T : Nat → Nat → Nat) (t : FlatMap Nat) (bits : List (BitVec 64)) : Prop :=
  ∃ mt, t.Good mt ∧
    (∀ e pos, mt e = some pos → pos % numWords k = 0 ∧ pos + numWords k ≤ bits.length) ∧
    (∀ e e' pos, mt e = some pos → mt e' = some pos → e = e') ∧
    bits.length % numWords k = 0 ∧
    ∀ e ∈ H.edges, ∀ p, p < numWords k * 64 →
      (wbit (W P.con e) p ^^ (match mt e with
        | some pos => wbit (fun i => bits.getD (pos + i) 0) p
        | none => false)) = decide (p < k ∧ 0 < T e p)

/-- gain deltas: benefit terms exact, penalty terms exact for the nodes outside `M` -/
def GainOK (H : HG) (k : Nat) (o : Metrics.Obj) (cache : Nat → Int) (V : Nat → Assign) (Φ : Assign) (M : Nat → Prop)
    (g : FlatMap Int) : Prop :=
  ∃ mg, g.Good mg ∧ (∀ v ∈ H.nodes, ∀ b, b < k →
      cache (benIdx k v b) + (mg (benIdx k v b)).getD 0 = CSt.multSum H (benMult o) V v b) ∧
    ∀ v ∈ H.nodes, ¬ M v → ∀ p, Φ v = some p →
      cache (penIdx k v) + (mg (penIdx k v)).getD 0 = CSt.multSum H (penMult o) V v p

/-- node ids -/
def IdsOK (P : PHG σ) (Φ : Assign) (s : FlatMap Nat) : Prop :=
  ∃ mi, s.Good mi ∧ ∀ u, Φ u = (match mi u with | some b => some b | none => P.part u)

theorem partID_eq {D : DPHG} {Φ : Assign} (h : IdsOK P Φ D.ids) (u : Nat) : D.partID P u = some (Φ u) := by
  obtain ⟨mi, h1, h2⟩ := h
  unfold partID
  rw [h1.get, h2 u]
  cases mi u <;> rfl

theorem PcOK.congr {T T' : Nat → Nat → Nat} {s : FlatMap Int} (h : PcOK C H k P T s)
    (hv : ∀ e ∈ H.edges, ∀ b, b < k → T' e b = T e b) : PcOK C H k P T' s := by
  obtain ⟨mp, h1, h2⟩ := h
  refine ⟨mp, h1, fun e he b hb => ?_⟩
  rw [h2 e he b hb, hv e he b hb]

theorem addPin_spec {D : DPHG} {T : Nat → Nat → Nat} (hmk : m * k ≤ 2 ^ 32) (hf : H.Fits m mx) (h : PcOK C H k P T D.pcs)
    {e b : Nat} (he : e ∈ H.edges) (hb : b < k) {x : Int} {y : Nat} (hy : (T e b : Int) + x = y) :
    ∃ s, D.addPin C k P e b x = some (y, { D with pcs := s }) ∧
      PcOK C H k P (fun e' b' => if e' = e ∧ b' = b then y else T e' b') s := by
  obtain ⟨mp, h1, h2⟩ := h
  obtain ⟨s, h3, h4⟩ := h1.modify 0 (pcIdx k e b) (· + x)
  have hval : (C.pinCount P.con e b : Int) + ((mp (pcIdx k e b)).getD 0 + x) = y := by
    have := h2 e he b hb; omega
  refine ⟨s, ?_, _, h4, ?_⟩
  · unfold addPin
    simp only [h3, h4.get, if_true, Option.getD_some, hval]
    simp
  · intro e' he' b' hb'
    by_cases hc : e' = e ∧ b' = b
    · obtain ⟨rfl, rfl⟩ := hc
      simp [hval]
    · simp only [if_neg hc]
      rw [if_neg, h2 e' he' b' hb']
      intro hi
      exact hc (pcIdx_inj hmk (hf e' he').1 (hf e he).1 hb' hb hi)

theorem wbit_xor_shl (w : Nat → BitVec 64) (j b p : Nat) (hj : j = b / 64) :
    wbit (fun i => if i = j then w i ^^^ ((1 : BitVec 64) <<< (b % 64)) else w i) p = (wbit w p ^^ decide (p = b)) := by
  subst hj
  have hm : b % 64 < 64 := Nat.mod_lt _ (by decide)
  unfold wbit
  simp only
  split
  · rename_i h
    rw [BitVec.getLsbD_xor, ConnSets.one_shl_bit _ _ hm]
    congr 1
    by_cases hp : p = b
    · subst hp; simp
    · have : p % 64 ≠ b % 64 := by omega
      simp [hp, this]
  · rename_i h
    have : p ≠ b := by rintro rfl; exact h rfl
    simp [this]

theorem getD_modify (l : List (BitVec 64)) (j i : Nat) (f : BitVec 64 → BitVec 64) (hj : j < l.length) :
    (l.modify j f).getD i 0 = if i = j then f (l.getD i 0) else l.getD i 0 := by
  rw [List.getD_eq_getElem?_getD, List.getD_eq_getElem?_getD, List.getElem?_modify]
  by_cases h : i = j
  · subst h
    rw [List.getElem?_eq_getElem hj]; simp
  · have : ¬ j = i := fun h' => h h'.symm
    simp [this, h]

theorem segments_disjoint {n pos pos' i j : Nat} (hn : pos % n = 0) (hn' : pos' % n = 0) (hi : i < n) (hj : j < n)
    (h : pos + i = pos' + j) : pos = pos' ∧ i = j := by
  have h1 : (pos + i) % n = i := by rw [Nat.add_mod, hn]; simp [Nat.mod_eq_of_lt hi]
  have h2 : (pos' + j) % n = j := by rw [Nat.add_mod, hn']; simp [Nat.mod_eq_of_lt hj]
  rw [h, h2] at h1
  omega

/-- toggling flips one bit of one hyperedge -/
theorem toggle_spec {D : DPHG} {mt : FMap Nat} (h1 : D.touched.Good mt)
    (h2 : ∀ e pos, mt e = some pos → pos % numWords k = 0 ∧ pos + numWords k ≤ D.bits.length)
    (h3 : ∀ e e' pos, mt e = some pos → mt e' = some pos → e = e')
    (h4 : D.bits.length % numWords k = 0) {e b : Nat} (hb : b < k) :
    ∃ t bits mt', D.toggle k e b = some { D with touched := t, bits := bits } ∧ t.Good mt' ∧
      (∀ e pos, mt' e = some pos → pos % numWords k = 0 ∧ pos + numWords k ≤ bits.length) ∧
      (∀ e e' pos, mt' e = some pos → mt' e' = some pos → e = e') ∧
      bits.length % numWords k = 0 ∧
      ∀ e' p, p < numWords k * 64 →
        (match mt' e' with | some pos => wbit (fun i => bits.getD (pos + i) 0) p | none => false) =
        ((match mt e' with | some pos => wbit (fun i => D.bits.getD (pos + i) 0) p | none => false) ^^
          decide (e' = e ∧ p = b)) := by
  have hbk : b / 64 < numWords k := by have := numWords_le k; omega
  cases hme : mt e with
  | some pos =>
    obtain ⟨g1, g2⟩ := h2 e pos hme
    have hj : pos + b / 64 < D.bits.length := by omega
    refine ⟨D.touched, D.bits.modify (pos + b / 64) (· ^^^ ((1 : BitVec 64) <<< (b % 64))), mt, ?_, h1, ?_, h3, ?_, ?_⟩
    · unfold toggle; rw [h1.get, hme]
    · intro e' pos' h'; rw [List.length_modify]; exact h2 e' pos' h'
    · rw [List.length_modify]; exact h4
    · intro e' p hp
      have hp64 : p / 64 < numWords k := by omega
      cases hme' : mt e' with
      | none =>
        have : ¬ (e' = e) := by rintro rfl; rw [hme] at hme'; cases hme'
        simp [this]
      | some pos' =>
        obtain ⟨g3, g4⟩ := h2 e' pos' hme'
        simp only
        by_cases hee : e' = e
        · subst hee
          rw [hme] at hme'; cases hme'
          have hw : wbit (fun i => (D.bits.modify (pos + b / 64) (· ^^^ ((1 : BitVec 64) <<< (b % 64)))).getD (pos + i) 0) p =
              wbit (fun i => if i = b / 64 then D.bits.getD (pos + i) 0 ^^^ ((1 : BitVec 64) <<< (b % 64)) else D.bits.getD (pos + i) 0) p := by
            congr 1; funext i
            rw [getD_modify _ _ _ _ hj]
            by_cases hi : i = b / 64
            · rw [if_pos hi, if_pos (by omega)]
            · rw [if_neg hi, if_neg (by omega)]
          rw [hw, wbit_xor_shl _ _ b p rfl]; simp
        · have hw : wbit (fun i => (D.bits.modify (pos + b / 64) (· ^^^ ((1 : BitVec 64) <<< (b % 64)))).getD (pos' + i) 0) p =
              wbit (fun i => D.bits.getD (pos' + i) 0) p := by
            unfold wbit
            simp only
            rw [getD_modify _ _ _ _ hj, if_neg]
            intro hi
            have := (segments_disjoint g3 g1 hp64 hbk hi).1
            subst this
            exact hee (h3 e' e pos' hme' hme)
          rw [hw]; simp [hee]
  | none =>
    obtain ⟨t, h5, h6⟩ := h1.modify 0 e (fun _ => D.bits.length)
    have hj : D.bits.length + b / 64 < (D.bits ++ List.replicate (numWords k) (0 : BitVec 64)).length := by
      simp; omega
    refine ⟨t, (D.bits ++ List.replicate (numWords k) 0).modify (D.bits.length + b / 64) (· ^^^ ((1 : BitVec 64) <<< (b % 64))),
      _, ?_, h6, ?_, ?_, ?_, ?_⟩
    · unfold toggle; rw [h1.get, hme]; simp only [h5]
    · intro e' pos' h'
      rw [List.length_modify, List.length_append, List.length_replicate]
      split at h'
      · cases h'; exact ⟨h4, Nat.le_refl _⟩
      · have := h2 e' pos' h'; omega
    · intro e1 e2 pos' h' h''
      split at h' <;> split at h''
      · rename_i a b; rw [a, b]
      · cases h'
        have := h2 e2 _ h''
        have : 0 < numWords k := by omega
        omega
      · cases h''
        have := h2 e1 _ h'
        have : 0 < numWords k := by omega
        omega
      · exact h3 e1 e2 pos' h' h''
    · rw [List.length_modify, List.length_append, List.length_replicate]; simp [h4]
    · intro e' p hp
      have hp64 : p / 64 < numWords k := by omega
      by_cases hee : e' = e
      · subst hee
        rw [if_pos rfl, hme]
        simp only
        have hw : wbit (fun i => ((D.bits ++ List.replicate (numWords k) 0).modify (D.bits.length + b / 64)
              (· ^^^ ((1 : BitVec 64) <<< (b % 64)))).getD (D.bits.length + i) 0) p =
            wbit (fun i => if i = b / 64 then (0 : BitVec 64) ^^^ ((1 : BitVec 64) <<< (b % 64)) else 0) p := by
          congr 1; funext i
          rw [getD_modify _ _ _ _ hj]
          have hz : (D.bits ++ List.replicate (numWords k) (0 : BitVec 64)).getD (D.bits.length + i) 0 = 0 := by
            rw [List.getD_eq_getElem?_getD, List.getElem?_append_right (by omega), Nat.add_sub_cancel_left,
              List.getElem?_replicate]
            split <;> rfl
          rw [hz]
          by_cases hi : i = b / 64
          · rw [if_pos hi, if_pos (by omega)]
          · rw [if_neg hi, if_neg (by omega)]
        rw [hw, wbit_xor_shl (fun _ => 0) _ b p rfl]; simp [wbit]
      · rw [if_neg hee]
        cases hme' : mt e' with
        | none => simp [hee]
        | some pos' =>
          obtain ⟨g3, g4⟩ := h2 e' pos' hme'
          simp only
          have hw : wbit (fun i => ((D.bits ++ List.replicate (numWords k) 0).modify (D.bits.length + b / 64)
              (· ^^^ ((1 : BitVec 64) <<< (b % 64)))).getD (pos' + i) 0) p = wbit (fun i => D.bits.getD (pos' + i) 0) p := by
            unfold wbit
            simp only
            rw [getD_modify _ _ _ _ hj, if_neg (by omega), List.getD_eq_getElem?_getD, List.getD_eq_getElem?_getD,
              List.getElem?_append_left (by omega)]
          rw [hw]; simp [hee]

/-- one update of the connectivity set -/
theorem ConOK.flip {D : DPHG} {T T' : Nat → Nat → Nat} (h : ConOK W H k P T D.touched D.bits) {e b : Nat} (hb : b < k)
    (hv : ∀ e' ∈ H.edges, ∀ p, p < k → ((0 < T' e' p) ↔
      if e' = e ∧ p = b then ¬ 0 < T e' p else 0 < T e' p)) :
    ∃ t bits, D.toggle k e b = some { D with touched := t, bits := bits } ∧ ConOK W H k P T' t bits := by
  obtain ⟨mt, h1, h2, h3, h4, h5⟩ := h
  obtain ⟨t, bits, mt', g1, g2, g3, g4, g5, g6⟩ := toggle_spec h1 h2 h3 h4 (e := e) hb
  refine ⟨t, bits, g1, mt', g2, g3, g4, g5, ?_⟩
  intro e' he' p hp
  rw [g6 e' p hp, ← Bool.xor_assoc, h5 e' he' p hp]
  by_cases hpk : p < k
  · have := hv e' he' p hpk
    by_cases hc : e' = e ∧ p = b
    · rw [if_pos hc] at this
      obtain ⟨rfl, rfl⟩ := hc
      simp only [this, hpk, true_and, and_self, decide_true, Bool.xor_true, decide_not]
    · rw [if_neg hc] at this
      simp only [this, hpk, true_and, hc, decide_false, Bool.xor_false]
  · have : ¬ (e' = e ∧ p = b) := by rintro ⟨_, rfl⟩; exact hpk hb
    simp [hpk, this]

theorem ConOK.same {t : FlatMap Nat} {bits} {T T' : Nat → Nat → Nat} (h : ConOK W H k P T t bits)
    (hv : ∀ e' ∈ H.edges, ∀ p, p < k → (0 < T' e' p ↔ 0 < T e' p)) :
    ConOK W H k P T' t bits := by
  obtain ⟨mt, h1, h2, h3, h4, h5⟩ := h
  refine ⟨mt, h1, h2, h3, h4, fun e' he' p hp => ?_⟩
  rw [h5 e' he' p hp]
  by_cases hpk : p < k
  · simp [hpk, hv e' he' p hpk]
  · simp [hpk]

theorem ConOK.flipIf {D : DPHG} {T : Nat → Nat → Nat} (h : ConOK W H k P T D.touched D.bits) {e b y : Nat} (hb : b < k)
    {c : Prop} [Decidable c] (hc : c → ¬ (0 < y ↔ 0 < T e b)) (hc' : ¬ c → (0 < y ↔ 0 < T e b)) :
    ∃ t bits, (if c then D.toggle k e b else some D) = some { D with touched := t, bits := bits } ∧
      ConOK W H k P (fun e' b' => if e' = e ∧ b' = b then y else T e' b') t bits := by
  by_cases h0 : c
  · rw [if_pos h0]
    refine h.flip hb (fun e' _ p _ => ?_)
    by_cases hx : e' = e ∧ p = b
    · simp only [if_pos hx]
      have := hc h0
      obtain ⟨rfl, rfl⟩ := hx
      omega
    · simp only [if_neg hx]
  · rw [if_neg h0]
    refine ⟨D.touched, D.bits, rfl, h.same (fun e' _ p _ => ?_)⟩
    by_cases hx : e' = e ∧ p = b
    · simp only [if_pos hx]
      obtain ⟨rfl, rfl⟩ := hx
      exact hc' h0
    · simp only [if_neg hx]

theorem gainOps_spec (ops : List CacheOp) : ∀ {D : DPHG} {Φ : Assign} {mg : FMap Int}, IdsOK P Φ D.ids → D.gain.Good mg →
    ∃ g mg', D.gainOps P ops = some { D with gain := g } ∧ g.Good mg' ∧
      ∀ i, (mg' i).getD 0 = (mg i).getD 0 + opsSum Φ i ops := by
  induction ops with
  | nil => intro D Φ mg _ h; exact ⟨D.gain, mg, rfl, h, fun i => by simp [opsSum]⟩
  | cons op ops ih =>
    intro D Φ mg hid h
    have step : ∃ g mg1, D.gainOp P op = some { D with gain := g } ∧ g.Good mg1 ∧
        ∀ i, (mg1 i).getD 0 = (mg i).getD 0 + op.contrib Φ i := by
      have hmod : ∀ (i : Nat) (x : Int), ∃ g mg1, (D.gain.modify 0 i (· + x)).map (fun g => { D with gain := g }) = some { D with gain := g } ∧
          g.Good mg1 ∧ ∀ j, (mg1 j).getD 0 = (mg j).getD 0 + (if i = j then x else 0) := by
        intro i x
        obtain ⟨g, g1, g2⟩ := h.modify 0 i (· + x)
        refine ⟨g, _, by rw [g1]; rfl, g2, fun j => ?_⟩
        by_cases hj : j = i
        · subst hj; simp
        · have : ¬ i = j := fun h => hj h.symm
          simp [hj, this]
      cases op with
      | add i x =>
        obtain ⟨g, mg1, h1, h2, h3⟩ := hmod i x
        exact ⟨g, mg1, h1, h2, fun j => by rw [h3]; rfl⟩
      | addIf u b i x =>
        have hop : D.gainOp P (.addIf u b i x) = if Φ u = some b then
            (D.gain.modify 0 i (· + x)).map fun g => { D with gain := g } else some D := by
          simp only [gainOp, partID_eq hid]
        rw [hop]
        by_cases hp : Φ u = some b
        · rw [if_pos hp]
          obtain ⟨g, mg1, h1, h2, h3⟩ := hmod i x
          refine ⟨g, mg1, h1, h2, fun j => ?_⟩
          rw [h3]; simp [CacheOp.contrib, hp]
        · rw [if_neg hp]
          exact ⟨D.gain, mg, rfl, h, fun j => by simp [CacheOp.contrib, hp]⟩
    obtain ⟨g, mg1, h1, h2, h3⟩ := step
    obtain ⟨g', mg', h4, h5, h6⟩ := ih (D := { D with gain := g }) (Φ := Φ) hid h2
    refine ⟨g', mg', ?_, h5, fun i => ?_⟩
    · rw [gainOps, h1]; exact h4
    · rw [h6, h3, opsSum_cons]; ring

/-- pin counts of a view per hyperedge -/
def VT (H : HG) (V : Nat → Assign) : Nat → Nat → Nat := fun e b => H.pinsIn (V e) e b

/-- the loop body: one incident hyperedge `e` of the moved node -/
theorem updateEdge_spec {mc : Bool} {cache : Nat → Int} (hw : H.WF) (hmk : m * k ≤ 2 ^ 32) (hf : H.Fits m mx) {D : DPHG}
    {V : Nat → Assign} {Φ Φ1 : Assign} {M : Nat → Prop} {u src dst e : Nat} (hid : IdsOK P Φ1 D.ids)
    (hpc : PcOK C H k P (VT H V) D.pcs) (hcon : mc = true → ConOK W H k P (VT H V) D.touched D.bits)
    (hg : GainOK H k o cache V Φ1 M D.gain) (he : e ∈ H.edges) (hue : u ∈ H.pins e) (hV : V e = Φ)
    (h1 : Φ1 = Φ.put u dst) (hpu : Φ u = some src) (hne : src ≠ dst) (hs : src < k) (hd : dst < k) (hM : M u) :
    ∃ D', D.updateEdge C H k o P mc e src dst = some
        ({ he := e, src := src, dst := dst, weight := H.ew e, size := (H.pins e).length,
           srcAfter := H.pinsIn Φ1 e src, dstAfter := H.pinsIn Φ1 e dst }, D') ∧
      D'.ids = D.ids ∧ D'.wtD = D.wtD ∧
      PcOK C H k P (VT H (fun e' => if e' = e then Φ1 else V e')) D'.pcs ∧
      (mc = true → ConOK W H k P (VT H (fun e' => if e' = e then Φ1 else V e')) D'.touched D'.bits) ∧
      (mc = false → D'.touched = D.touched) ∧
      GainOK H k o cache (fun e' => if e' = e then Φ1 else V e') Φ1 M D'.gain := by
  have hn := hw.pins_nodup e he
  have key : ∀ c, H.pinsIn Φ1 e c + (if Φ u = some c then 1 else 0) = H.pinsIn Φ e c + (if c = dst then 1 else 0) :=
    fun c => by rw [h1]; exact HG.pinsIn_put_mem hn hue
  simp only [hpu, Option.some.injEq] at key
  have ks := key src
  have kd := key dst
  simp only [if_true, if_neg hne] at ks kd
  have h5 : ∀ c, c ≠ src → c ≠ dst → H.pinsIn Φ1 e c = H.pinsIn Φ e c := by
    intro c a1 a2
    have := key c
    rw [if_neg (fun h => a1 h.symm), if_neg a2] at this
    omega
  have hle : ∀ (Ψ : Assign) c, H.pinsIn Ψ e c ≤ (H.pins e).length := fun Ψ c => List.countP_le_length
  have hVe : ∀ c, VT H V e c = H.pinsIn Φ e c := fun c => by unfold VT; rw [hV]
  have hfin : ∀ e' b, (if e' = e ∧ b = dst then H.pinsIn Φ1 e dst else
      if e' = e ∧ b = src then H.pinsIn Φ1 e src else VT H V e' b) = VT H (fun e' => if e' = e then Φ1 else V e') e' b := by
    intro e' b
    by_cases hee : e' = e
    · subst hee
      have hr : VT H (fun e'' => if e'' = e' then Φ1 else V e'') e' b = H.pinsIn Φ1 e' b := by simp [VT]
      rw [hr]
      by_cases hbd : b = dst
      · subst hbd; simp
      · by_cases hbs : b = src
        · subst hbs; simp [hbd]
        · simp only [hbd, hbs, and_false, if_false]
          rw [hVe, h5 b hbs hbd]
    · simp [hee, VT]
  -- pin counts
  obtain ⟨s1, a1, hpc1⟩ := addPin_spec (D := D) hmk hf hpc he hs (x := -1) (y := H.pinsIn Φ1 e src) (by rw [hVe]; omega)
  obtain ⟨s2, a2, hpc2⟩ := addPin_spec (D := { D with pcs := s1 }) hmk hf hpc1 he hd (x := 1) (y := H.pinsIn Φ1 e dst)
    (by rw [if_neg (by rintro ⟨_, h⟩; exact hne h.symm), hVe]; omega)
  -- connectivity sets
  have hconn : ∃ t bits, (if mc then ({ D with pcs := s2 } : DPHG).updateCon k
        { he := e, src := src, dst := dst, weight := H.ew e, size := (H.pins e).length,
          srcAfter := H.pinsIn Φ1 e src, dstAfter := H.pinsIn Φ1 e dst } else some { D with pcs := s2 }) =
        some { D with pcs := s2, touched := t, bits := bits } ∧
      (mc = true → ConOK W H k P (VT H (fun e' => if e' = e then Φ1 else V e')) t bits) ∧ (mc = false → t = D.touched) := by
    by_cases hmc : mc = true
    · rw [if_pos hmc]
      obtain ⟨t1, b1, c1, c2⟩ := ConOK.flipIf (D := { D with pcs := s2 }) (hcon hmc) (e := e) (y := H.pinsIn Φ1 e src)
        (c := H.pinsIn Φ1 e src = 0) hs (by intro h; rw [hVe]; omega) (by intro h; rw [hVe]; omega)
      obtain ⟨t2, b2, c3, c4⟩ := ConOK.flipIf (D := { D with pcs := s2, touched := t1, bits := b1 }) c2 (e := e)
        (y := H.pinsIn Φ1 e dst) (c := H.pinsIn Φ1 e dst = 1) hd
        (by intro h; rw [if_neg (by rintro ⟨_, h⟩; exact hne h.symm), hVe]; omega)
        (by intro h; rw [if_neg (by rintro ⟨_, h⟩; exact hne h.symm), hVe]; omega)
      refine ⟨t2, b2, ?_, fun _ => c4.same (fun e' _ p _ => by rw [← hfin]), fun h => by rw [hmc] at h; cases h⟩
      unfold updateCon
      simp only [c1]
      exact c3
    · rw [if_neg hmc]
      exact ⟨D.touched, D.bits, rfl, fun h => absurd h hmc, fun _ => rfl⟩
  obtain ⟨t, bits, e1, e2, e3⟩ := hconn
  -- gains
  obtain ⟨mg, g1, g2, g3⟩ := hg
  obtain ⟨g, mg', g4, g5, g6⟩ := gainOps_spec (P := P) (gainDelta o k (H.pins e)
    { he := e, src := src, dst := dst, weight := H.ew e, size := (H.pins e).length,
      srcAfter := H.pinsIn Φ1 e src, dstAfter := H.pinsIn Φ1 e dst })
    (D := { D with pcs := s2, touched := t, bits := bits }) (Φ := Φ1) (mg := mg) hid g1
  have hview : ∀ (f : Nat → Nat → Int) v, v ∈ H.nodes → ∀ b,
      CSt.multSum H f (fun e' => if e' = e then Φ1 else V e') v b = CSt.multSum H f V v b +
        (if v ∈ H.pins e then H.ew e * (f (H.pins e).length (H.pinsIn Φ1 e b) - f (H.pins e).length (H.pinsIn Φ e b)) else 0) := by
    intro f v hv b
    rw [CSt.multSum_upd hw hv he (W := V) (V := fun e' => if e' = e then Φ1 else V e') ?_ b]
    · simp [hV]
    · intro e' hx v'; simp [hx]
  refine ⟨{ D with pcs := s2, touched := t, bits := bits, gain := g }, ?_, rfl, rfl, hpc2.congr (fun e' _ b _ => (hfin e' b).symm), e2, e3, mg', g5, ?_, ?_⟩
  · unfold updateEdge
    simp only [a1, a2, e1, g4]
    rfl
  · intro v hv b hb
    rw [g6, ← add_assoc, g2 v hv b hb, hview _ v hv b]
    congr 1
    rw [gainDelta_ben o hn hb hs hd hne (H.pinsIn Φ e) (H.pinsIn Φ1 e) rfl rfl (by simp only; omega) (by simp only; omega) h5
      (hle _ _) (hle _ _)]
  · intro v hv hmv p hpv
    have hvu : v ≠ u := by rintro rfl; exact hmv hM
    have hΦv : Φ v = some p := by rw [← hpv, h1, Assign.put_other _ hvu]
    rw [g6, ← add_assoc, g3 v hv hmv p hpv, hview _ v hv p]
    congr 1
    rw [gainDelta_pen o hn hs hd hne (H.pinsIn Φ e) (H.pinsIn Φ1 e) rfl rfl (by simp only; omega) (by simp only; omega) h5
      (fun c d h => HG.pinsIn_add_le h) (fun c d h => HG.pinsIn_add_le h) hpv ?_]
    intro hvp
    unfold HG.pinsIn
    rw [List.countP_pos_iff, List.countP_pos_iff]
    exact ⟨⟨v, hvp, by simp [hΦv]⟩, ⟨v, hvp, by simp [hpv]⟩⟩

/-! ## iterator -/

theorem nextBlock_spec {word : Nat → BitVec 64} (n c : Nat) (hc : c ≤ n * 64) :
    c ≤ nextBlock word (n * 64) c ∧ nextBlock word (n * 64) c ≤ n * 64 ∧
      (∀ i, c ≤ i → i < nextBlock word (n * 64) c → wbit word i = false) ∧
      (nextBlock word (n * 64) c < n * 64 → wbit word (nextBlock word (n * 64) c) = true) := by
  fun_induction nextBlock word (n * 64) c with
  | case1 c h b hb ih =>
    have hm := Nat.mod_lt c (by decide : 64 > 0)
    have hle : c + (64 - c % 64) ≤ n * 64 := by omega
    obtain ⟨h1, h2, h3, h4⟩ := ih hle
    refine ⟨by omega, h2, ?_, h4⟩
    intro i hi1 hi2
    by_cases hlt : i < c + (64 - c % 64)
    · have hd : i / 64 = c / 64 := by omega
      have : (b >>> (c % 64)).getLsbD (i % 64 - c % 64) = false := by rw [hb]; simp
      rw [BitVec.getLsbD_ushiftRight] at this
      unfold wbit
      rw [hd]
      have he : c % 64 + (i % 64 - c % 64) = i % 64 := by omega
      rw [he] at this
      exact this
    · exact h3 i (by omega) hi2
  | case2 c h b hb =>
    obtain ⟨c1, c2, c3⟩ := ctz64_spec hb
    generalize ctz64 (b >>> (c % 64)) = z at *
    rw [BitVec.getLsbD_ushiftRight] at c2
    have hz64 : c % 64 + z < 64 := by
      by_contra hge
      have := BitVec.getLsbD_of_ge b (c % 64 + z) (by omega)
      rw [this] at c2; exact absurd c2 (by simp)
    refine ⟨by omega, by omega, ?_, ?_⟩
    · intro i hi1 hi2
      have hj := c3 (i - c) (by omega)
      rw [BitVec.getLsbD_ushiftRight] at hj
      unfold wbit
      have e1 : i / 64 = c / 64 := by omega
      have e2 : i % 64 = c % 64 + (i - c) := by omega
      rw [e1, e2]; exact hj
    · intro _
      unfold wbit
      have e1 : (c + z) / 64 = c / 64 := by omega
      have e2 : (c + z) % 64 = c % 64 + z := by omega
      rw [e1, e2]; exact c2
  | case3 c h => exact ⟨by omega, Nat.le_refl _, fun i h1 h2 => by omega, fun h' => absurd h' (Nat.lt_irrefl _)⟩

theorem collect_spec {word : Nat → BitVec 64} (n : Nat) (fuel : Nat) : ∀ c, c ≤ n * 64 → n * 64 - c < fuel →
    collect word (n * 64) fuel (nextBlock word (n * 64) c) =
      (List.range' c (n * 64 - c)).filter (wbit word) := by
  induction fuel with
  | zero => intro c _ h; omega
  | succ f ih =>
    intro c hc hf
    obtain ⟨h1, h2, h3, h4⟩ := nextBlock_spec (word := word) n c hc
    rw [collect]
    generalize nextBlock word (n * 64) c = x at *
    split
    · rename_i he; subst he
      symm; rw [List.filter_eq_nil_iff]
      intro i hi
      rw [List.mem_range'_1] at hi
      rw [h3 i hi.1 (by omega)]; simp
    · rename_i hne
      rw [ih (x + 1) (by omega) (by omega)]
      exact (OneBit.filter_range'_first h1 (by omega) h3 (h4 (by omega))).symm

/-! ## the whole state -/

/-- State `D` over shared partition `P` represents assignment `Φ`; the penalty terms of the nodes in `M` may be stale. -/
structure DSim (C : ConInfo σ) (W : ConWords σ) (H : HG) (k : Nat) (o : Metrics.Obj) (P : PHG σ) (cache : Nat → Int)
    (mc : Bool) (Φ : Assign) (M : Nat → Prop) (D : DPHG) : Prop where
  ids : IdsOK P Φ D.ids
  idsM : ∀ u b, D.ids.getIfContained u = some (some b) → M u
  range : ∀ u b, Φ u = some b → b < k
  wt : ∀ b, b < k → P.wt b + D.wtD b = H.blockWeight Φ b
  pc : PcOK C H k P (VT H fun _ => Φ) D.pcs
  con : mc = true → ConOK W H k P (VT H fun _ => Φ) D.touched D.bits
  tch : ∃ mt, D.touched.Good mt
  gain : GainOK H k o cache (fun _ => Φ) Φ M D.gain

theorem DSim.fresh {L : C.Lawful m k mx} (hW : W.Lawful L) (hf : H.Fits m mx) {Φ : Assign} (hS : PHG.Sim L H P Φ)
    {cache : Nat → Int} (hc : ∀ u ∈ H.nodes, EntryExact H k o cache Φ u) {D : DPHG} {mc : Bool}
    (h1 : D.ids.Good fun _ => none) (h2 : D.pcs.Good fun _ => none) (h3 : D.touched.Good fun _ => none) (h4 : D.bits = [])
    (h5 : D.gain.Good fun _ => none) (h6 : ∀ b, D.wtD b = 0) : DSim C W H k o P cache mc Φ (fun _ => False) D := by
  obtain ⟨T, hR, hT⟩ := hS.con
  refine ⟨⟨_, h1, fun u => by simp [hS.part]⟩, fun u b h => (by rw [h1.get] at h; cases h), hS.range, fun b hb => by rw [h6, hS.wt b hb]; simp, ⟨_, h2, fun e he b hb => ?_⟩,
    fun _ => ⟨_, h3, by simp, by simp, by simp [h4], fun e he p hp => ?_⟩, ⟨_, h3⟩, ⟨_, h5, fun v hv b hb => ?_, fun v hv _ p hp => ?_⟩⟩
  · simp only [Option.getD_none, add_zero, VT]
    rw [L.pinCount_eq hR (hf e he).1 hb, hT e he b hb]
  · simp only [Bool.xor_false]
    rw [hW.bit hR (hf e he).1 p hp]
    refine decide_eq_decide.2 (and_congr_right (fun h => ?_))
    rw [hT e he p h]; rfl
  · simpa using (hc v hv).1 b hb
  · simpa using (hc v hv).2 p hp

theorem DSim.clear {L : C.Lawful m k mx} (hW : W.Lawful L) (hf : H.Fits m mx) {Φ Ψ : Assign} (hS : PHG.Sim L H P Φ)
    {cache : Nat → Int} (hc : ∀ u ∈ H.nodes, EntryExact H k o cache Φ u) {D : DPHG} {mc : Bool} {M : Nat → Prop}
    (h : DSim C W H k o P cache mc Ψ M D) :
    DSim C W H k o P cache mc Φ (fun _ => False) D.clear := by
  obtain ⟨_, a, _⟩ := h.ids
  obtain ⟨_, b, _⟩ := h.pc
  obtain ⟨_, c⟩ := h.tch
  obtain ⟨_, d, _⟩ := h.gain
  exact DSim.fresh hW hf hS hc a.clear b.clear c.clear rfl d.clear (fun _ => rfl)

/-- all incident hyperedges -/
theorem updateEdges_spec {mc : Bool} {cache : Nat → Int} (hw : H.WF) (hmk : m * k ≤ 2 ^ 32) (hf : H.Fits m mx)
    {Φ Φ1 : Assign} {M : Nat → Prop} {u src dst : Nat}
    (h1 : Φ1 = Φ.put u dst) (hpu : Φ u = some src) (hne : src ≠ dst) (hs : src < k) (hd : dst < k) (hM : M u) :
    ∀ (es : List Nat) (D : DPHG) (V : Nat → Assign), es.Nodup → (∀ e ∈ es, e ∈ H.edges ∧ u ∈ H.pins e) →
      (∀ e ∈ es, V e = Φ) → IdsOK P Φ1 D.ids →
      PcOK C H k P (VT H V) D.pcs → (mc = true → ConOK W H k P (VT H V) D.touched D.bits) →
      GainOK H k o cache V Φ1 M D.gain →
    ∃ D' V', D.updateEdges C H k o P mc src dst es = some (es.map fun e =>
        { he := e, src := src, dst := dst, weight := H.ew e, size := (H.pins e).length,
           srcAfter := H.pinsIn Φ1 e src, dstAfter := H.pinsIn Φ1 e dst }, D') ∧
      D'.ids = D.ids ∧ D'.wtD = D.wtD ∧ (∀ e, V' e = if e ∈ es then Φ1 else V e) ∧
      PcOK C H k P (VT H V') D'.pcs ∧ (mc = true → ConOK W H k P (VT H V') D'.touched D'.bits) ∧
      (mc = false → D'.touched = D.touched) ∧
      GainOK H k o cache V' Φ1 M D'.gain := by
  intro es
  induction es with
  | nil => intro D V _ _ _ hi hp hc hg; exact ⟨D, V, rfl, rfl, rfl, by simp, hp, hc, fun _ => rfl, hg⟩
  | cons e es ih =>
    intro D V hnd hes hV hi hp hc hg
    rw [List.nodup_cons] at hnd
    obtain ⟨D1, a1, a2, a3, a4, a5, a7, a6⟩ := updateEdge_spec (mc := mc) hw hmk hf hi hp hc hg (hes e (by simp)).1
      (hes e (by simp)).2 (hV e (by simp)) h1 hpu hne hs hd hM
    obtain ⟨D2, V2, b1, b2, b3, b4, b5, b6, b8, b7⟩ := ih D1 _ hnd.2 (fun e' he' => hes e' (by simp [he']))
      (fun e' he' => by
        have : e' ≠ e := fun h => hnd.1 (h ▸ he')
        simp only [if_neg this]; exact hV e' (by simp [he'])) (a2 ▸ hi) a4 a5 a6
    refine ⟨D2, V2, ?_, b2.trans a2, b3.trans a3, ?_, b5, b6, fun h => (b8 h).trans (a7 h), b7⟩
    · rw [updateEdges, a1]
      simp only [b1]; rfl
    · intro e'
      rw [b4]
      by_cases h1 : e' = e <;> by_cases h2 : e' ∈ es <;> simp [h1, h2]

theorem changeNodePart_spec {mc : Bool} {cache : Nat → Int} (hw : H.WF) (hmk : m * k ≤ 2 ^ 32) (hf : H.Fits m mx)
    {Φ : Assign} {M : Nat → Prop} {D : DPHG} (hD : DSim C W H k o P cache mc Φ M D) {u src dst : Nat} {maxTo : Int}
    (hu : u ∈ H.nodes) (hpu : Φ u = some src) (hne : src ≠ dst) (hd : dst < k) :
    (H.blockWeight Φ dst + H.nw u ≤ maxTo → ∃ D', D.changeNodePart C H k o P mc u src dst maxTo = some
      (true, (H.inc u).map (fun e =>
        { he := e, src := src, dst := dst, weight := H.ew e, size := (H.pins e).length,
          srcAfter := H.pinsIn (Φ.put u dst) e src, dstAfter := H.pinsIn (Φ.put u dst) e dst }), D') ∧
      DSim C W H k o P cache mc (Φ.put u dst) (fun v => M v ∨ v = u) D') ∧
    (¬ H.blockWeight Φ dst + H.nw u ≤ maxTo → D.changeNodePart C H k o P mc u src dst maxTo = some (false, [], D)) := by
  have hs := hD.range u src hpu
  have hwt : D.partWeight P dst = H.blockWeight Φ dst := hD.wt dst hd
  constructor
  · intro hle
    obtain ⟨mi, m1, m2⟩ := hD.ids
    obtain ⟨ids', m3, m4⟩ := m1.modify 0 u (fun _ => dst)
    obtain ⟨i1, i2, i3⟩ := PHG.inc_spec hw hu
    have hid' : IdsOK P (Φ.put u dst) ids' := by
      refine ⟨_, m4, fun v => ?_⟩
      by_cases hv : v = u
      · subst hv; simp [Assign.put_same]
      · rw [Assign.put_other _ hv, m2 v]; simp [hv]
    obtain ⟨mg, g1, g2, g3⟩ := hD.gain
    obtain ⟨D', V', b1, b2, b3, b4, b5, b6, b8, b7⟩ := updateEdges_spec (mc := mc) (o := o) (cache := cache) (C := C) (W := W)
      (P := P) (M := fun v => M v ∨ v = u) (Φ1 := Φ.put u dst)
      hw hmk hf rfl hpu hne hs hd (Or.inr rfl) (H.inc u)
      { D with ids := ids', wtD := addWt (addWt D.wtD dst (H.nw u)) src (-H.nw u) } (fun _ => Φ) i1 i2 (fun _ _ => rfl)
      hid' hD.pc hD.con ⟨mg, g1, g2, fun v hv hm p hp => by
        rw [not_or] at hm
        rw [Assign.put_other _ hm.2] at hp
        exact g3 v hv hm.1 p hp⟩
    have hV' : ∀ e ∈ H.edges, ∀ x ∈ H.pins e, V' e x = (Φ.put u dst) x := by
      intro e he x hx
      rw [b4]
      split
      · rfl
      · rename_i hin
        have : x ≠ u := by rintro rfl; exact i3 e he hin hx
        rw [Assign.put_other _ this]
    have hVT : ∀ e ∈ H.edges, ∀ b, b < k → VT H (fun _ => Φ.put u dst) e b = VT H V' e b := by
      intro e he b _
      unfold VT
      rw [HG.pinsIn_congr (hV' e he)]
    refine ⟨D', ?_, b2 ▸ hid', ?_, ?_, ?_, b5.congr hVT, fun h => (b6 h).same (fun e he p hp => by rw [hVT e he p hp]), ?_, ?_⟩
    · unfold changeNodePart
      simp only [hwt, hle, if_true, m3, b1]; rfl
    · intro v b hv
      rw [b2] at hv
      simp only [m4.get, Option.some.injEq] at hv
      by_cases hvu : v = u
      · exact Or.inr hvu
      · rw [if_neg hvu] at hv
        exact Or.inl (hD.idsM v b (by rw [m1.get, hv]))
    · intro v b hv
      by_cases hvu : v = u
      · subst hvu; rw [Assign.put_same] at hv; cases hv; exact hd
      · rw [Assign.put_other Φ hvu] at hv; exact hD.range v b hv
    · intro b hb
      rw [b3, H.blockWeight_put hw.nodes_nodup hu, hpu]
      simp only [addWt]
      have := hD.wt b hb
      have e1 : (some src = some b) = (b = src) := by simp [eq_comm]
      simp only [e1]
      by_cases hbd : b = dst
      · subst hbd; simp [hne.symm]; omega
      · by_cases hbs : b = src
        · subst hbs; simp [hbd]; omega
        · simp [hbd, hbs]; omega
    · cases hmc : mc with
      | true => obtain ⟨mt, x, _⟩ := b6 hmc; exact ⟨mt, x⟩
      | false => rw [b8 hmc]; exact hD.tch
    · obtain ⟨mg', q1, q2, q3⟩ := b7
      refine ⟨mg', q1, fun v hv b hb => ?_, fun v hv hm p hp => ?_⟩
      · rw [q2 v hv b hb]; exact CSt.multSum_congr hw hv hV' b
      · rw [q3 v hv hm p hp]; exact CSt.multSum_congr hw hv hV' p
  · intro hgt
    unfold changeNodePart
    simp only [hwt, hgt, if_false]

/-! ## queries -/

section
variable {cache : Nat → Int} {mc : Bool} {Φ : Assign} {M : Nat → Prop} {D : DPHG}

theorem DSim.partWeight (hD : DSim C W H k o P cache mc Φ M D) {b : Nat} (hb : b < k) :
    D.partWeight P b = H.blockWeight Φ b := hD.wt b hb

theorem DSim.pinCount (hD : DSim C W H k o P cache mc Φ M D) {e b : Nat} (he : e ∈ H.edges) (hb : b < k) :
    D.pinCount C k P e b = some (H.pinsIn Φ e b) := by
  obtain ⟨mp, h1, h2⟩ := hD.pc
  unfold DPHG.pinCount
  rw [h1.get, Option.map_some, h2 e he b hb]
  simp [VT]

theorem words_eq {T : Nat → Nat → Nat} (h : ConOK W H k P T D.touched D.bits) {e : Nat} (he : e ∈ H.edges) :
    ∃ w, D.words W P e = some w ∧ ∀ p, p < numWords k * 64 → wbit w p = decide (p < k ∧ 0 < T e p) := by
  obtain ⟨mt, h1, h2, h3, h4, h5⟩ := h
  refine ⟨_, by unfold words localWords; rw [h1.get]; rfl, fun p hp => ?_⟩
  rw [← h5 e he p hp]
  unfold wbit
  rw [BitVec.getLsbD_xor]
  cases mt e <;> simp

theorem filter_words {w : Nat → BitVec 64} {T : Nat → Nat} (h : ∀ p, p < numWords k * 64 → wbit w p = decide (p < k ∧ 0 < T p)) :
    (List.range (numWords k * 64)).filter (wbit w) = (List.range k).filter fun b => decide (0 < T b) := by
  have hk := numWords_le k
  obtain ⟨d, hd⟩ := Nat.exists_eq_add_of_le hk
  rw [hd, List.range_add, List.filter_append]
  have h2 : (List.map (fun x => k + x) (List.range d)).filter (wbit w) = [] := by
    rw [List.filter_eq_nil_iff]
    intro a ha
    rw [List.mem_map] at ha
    obtain ⟨x, hx, rfl⟩ := ha
    rw [List.mem_range] at hx
    rw [h _ (by omega)]; simp
  rw [h2, List.append_nil]
  refine List.filter_congr (fun b hb => ?_)
  rw [List.mem_range] at hb
  rw [h b (by omega)]; simp [hb]

theorem DSim.connSet (hD : DSim C W H k o P cache true Φ M D) {e : Nat} (he : e ∈ H.edges) :
    D.connSet W k P e = some ((List.range k).filter fun b => decide (0 < H.pinsIn Φ e b)) := by
  obtain ⟨w, h1, h2⟩ := words_eq (hD.con rfl) he
  unfold DPHG.connSet
  rw [h1, Option.map_some, collect_spec _ _ 0 (by omega) (by omega), Nat.sub_zero, ← List.range_eq_range', filter_words h2]
  rfl

theorem DSim.connectivity (hD : DSim C W H k o P cache true Φ M D) {e : Nat} (he : e ∈ H.edges) :
    D.connectivity W k P e = some ((List.range k).filter fun b => decide (0 < H.pinsIn Φ e b)).length := by
  obtain ⟨mt, h1, h2, h3, h4, h5⟩ := hD.con rfl
  unfold DPHG.connectivity
  rw [h1.get, Option.map_some]
  have h6 := h5 e he
  congr 1
  cases hm : mt e with
  | some pos =>
    simp only
    rw [ConnSets.popcount_sum (fun i => W P.con e i ^^^ D.bits.getD (pos + i) 0)]
    rw [filter_words (T := VT H (fun _ => Φ) e)]
    · rfl
    · intro p hp
      rw [← h6 p hp, hm]
      unfold wbit; rw [BitVec.getLsbD_xor]
  | none =>
    simp only
    rw [ConnSets.popcount_sum]
    rw [filter_words (T := VT H (fun _ => Φ) e)]
    · rfl
    · intro p hp
      rw [← h6 p hp, hm]; simp

theorem DSim.localGain (hw : H.WF) (hD : DSim C W H k o P cache mc Φ M D) {v src dst : Nat} (hv : v ∈ H.nodes) (hm : ¬ M v)
    (hp : Φ v = some src) (hne : src ≠ dst) (hd : dst < k) (hall : ∀ x ∈ H.nodes, Φ x ≠ none) :
    D.localGain k cache v dst = some (H.objective Φ o - H.objective (Φ.put v dst) o) := by
  obtain ⟨mg, g1, g2, g3⟩ := hD.gain
  unfold DPHG.localGain
  rw [g1.get, g1.get]
  simp only
  rw [g2 v hv dst hd, g3 v hv hm src hp, mult_gain_eq hw hv hp hne hall o]

end

/-! ## the shared partition changes -/

/-- values of all cache entries for assignment `Φ` -/
def exactCache (H : HG) (k : Nat) (o : Metrics.Obj) (Φ : Assign) (i : Nat) : Int :=
  if i % (k + 1) = 0 then CSt.multSum H (penMult o) (fun _ => Φ) (i / (k + 1)) ((Φ (i / (k + 1))).getD 0)
  else CSt.multSum H (benMult o) (fun _ => Φ) (i / (k + 1)) (i % (k + 1) - 1)

theorem exactCache_ben (Φ : Assign) {v b : Nat} (hb : b < k) :
    exactCache H k o Φ (benIdx k v b) = CSt.multSum H (benMult o) (fun _ => Φ) v b := by
  have h1 : benIdx k v b / (k + 1) = v := by
    unfold benIdx
    rw [Nat.add_assoc, Nat.add_comm, Nat.add_mul_div_right _ _ (by omega), Nat.div_eq_of_lt (by omega)]; omega
  have h2 : benIdx k v b % (k + 1) = b + 1 := by
    unfold benIdx
    rw [Nat.add_assoc, Nat.add_comm, Nat.add_mul_mod_self_right, Nat.mod_eq_of_lt (by omega)]
  unfold exactCache
  rw [h1, h2, if_neg (by omega), Nat.add_sub_cancel]

theorem exactCache_pen (Φ : Assign) {v p : Nat} (hp : Φ v = some p) :
    exactCache H k o Φ (penIdx k v) = CSt.multSum H (penMult o) (fun _ => Φ) v p := by
  have h1 : penIdx k v / (k + 1) = v := by unfold penIdx; rw [Nat.mul_div_cancel _ (by omega)]
  have h2 : penIdx k v % (k + 1) = 0 := by unfold penIdx; rw [Nat.mul_mod_left]
  unfold exactCache
  rw [h1, h2, if_pos rfl, hp]; rfl

theorem exactCache_exact (Φ : Assign) (v : Nat) : EntryExact H k o (exactCache H k o Φ) Φ v :=
  ⟨fun _ hb => exactCache_ben Φ hb, fun _ hp => exactCache_pen Φ hp⟩

theorem pinsIn_diff (hw : H.WF) {Φ Ψ : Assign} {u src dst e : Nat} (he : e ∈ H.edges) (h1 : Φ u = some src) (h2 : Ψ u = some src)
    (b : Nat) : (H.pinsIn (Φ.put u dst) e b : Int) - H.pinsIn Φ e b = H.pinsIn (Ψ.put u dst) e b - H.pinsIn Ψ e b := by
  by_cases hu : u ∈ H.pins e
  · have a := HG.pinsIn_put_mem (Φ := Φ) (b := dst) (c := b) (hw.pins_nodup e he) hu
    have c := HG.pinsIn_put_mem (Φ := Ψ) (b := dst) (c := b) (hw.pins_nodup e he) hu
    rw [h1] at a; rw [h2] at c
    omega
  · rw [H.pinsIn_put_notMem hu, H.pinsIn_put_notMem hu]; omega

/-- Another thread moves `u`, which was not moved locally, on the shared partition: the overlay follows. -/
theorem DSim.sharedMove {L : C.Lawful m k mx} (hw : H.WF) (hf : H.Fits m mx) {Φs Φ : Assign} (hS : PHG.Sim L H P Φs)
    {cache : Nat → Int} {D : DPHG} {mc : Bool} {M : Nat → Prop} (hD : DSim C W H k o P cache mc Φ M D)
    {u src dst : Nat} (hu : u ∈ H.nodes) (hΦs : Φs u = some src) (hΦ : Φ u = some src)
    (hM : ¬ M u) (hd : dst < k) {P' : PHG σ} (hS' : PHG.Sim L H P' (Φs.put u dst)) :
    ∃ (W' : ConWords σ) (cache' : Nat → Int), DSim C W' H k o P' cache' mc (Φ.put u dst) M D := by
  obtain ⟨mi, i1, i2⟩ := hD.ids
  obtain ⟨mp, p1, p2⟩ := hD.pc
  obtain ⟨mg, g1, g2, g3⟩ := hD.gain
  obtain ⟨mt, t1⟩ := hD.tch
  obtain ⟨T, hR, hT⟩ := hS.con
  obtain ⟨T', hR', hT'⟩ := hS'.con
  have hmi : mi u = none := by
    cases h : mi u with
    | none => rfl
    | some b => exact absurd (hD.idsM u b (by rw [i1.get, h])) hM
  refine ⟨fun _ e => (((List.range (numWords k * 64)).filter (fun p => decide (p < k ∧ 0 < H.pinsIn (Φ.put u dst) e p) ^^
      (match mt e with | some pos => wbit (fun i => D.bits.getD (pos + i) 0) p | none => false))).foldl setBit (fun _ => 0)),
    fun i => exactCache H k o (Φ.put u dst) i - (mg i).getD 0, ⟨mi, i1, fun v => ?_⟩, hD.idsM, ?_, fun b hb => ?_,
    ⟨mp, p1, fun e he b hb => ?_⟩, fun hmc => ?_, hD.tch, ⟨mg, g1, fun v hv b hb => ?_, fun v hv _ p hp => ?_⟩⟩
  · have h2 := i2 v
    rw [hS.part] at h2
    rw [hS'.part]
    by_cases hv : v = u
    · subst hv; rw [hmi]; simp [Assign.put_same]
    · rw [Assign.put_other _ hv, Assign.put_other _ hv]; exact h2
  · intro v b hv
    by_cases hvu : v = u
    · subst hvu; rw [Assign.put_same] at hv; cases hv; exact hd
    · rw [Assign.put_other Φ hvu] at hv; exact hD.range v b hv
  · have a1 := hD.wt b hb
    have a2 := hS.wt b hb
    have a3 := hS'.wt b hb
    rw [H.blockWeight_put hw.nodes_nodup hu] at a3 ⊢
    rw [hΦs] at a3
    rw [hΦ]
    omega
  · have a1 := p2 e he b hb
    rw [L.pinCount_eq hR (hf e he).1 hb, hT e he b hb] at a1
    rw [L.pinCount_eq hR' (hf e he).1 hb, hT' e he b hb]
    have a2 := pinsIn_diff hw he hΦs hΦ (dst := dst) b
    simp only [VT] at a1 ⊢
    omega
  · obtain ⟨mt', c1, c2, c3, c4, c5⟩ := hD.con hmc
    have : ∀ e, mt e = mt' e := by
      intro e
      have := t1.get e
      rw [c1.get] at this
      exact (Option.some.inj this).symm
    refine ⟨mt', c1, c2, c3, c4, fun e he p hp => ?_⟩
    rw [wbit_setBits]
    have h0 : wbit (fun _ => (0 : BitVec 64)) p = false := by simp [wbit]
    rw [h0, Bool.false_or]
    simp only [List.mem_filter, List.mem_range, hp, true_and, Bool.decide_eq_true, this, Bool.xor_assoc, Bool.xor_self,
      Bool.xor_false]
    rfl
  · simp only [sub_add_cancel]; exact exactCache_ben _ hb
  · simp only [sub_add_cancel]; exact exactCache_pen _ hp

theorem GainOK.change {V : Nat → Assign} {Φ Φs : Assign} {M : Nat → Prop} {g : FlatMap Int} {cache cache' : Nat → Int}
    (h : GainOK H k o cache V Φ M g) (hc : ∀ v ∈ H.nodes, EntryExact H k o cache Φs v)
    (hc' : ∀ v ∈ H.nodes, EntryExact H k o cache' Φs v) (hall : ∀ v ∈ H.nodes, Φs v ≠ none) :
    GainOK H k o cache' V Φ M g := by
  obtain ⟨mg, g1, g2, g3⟩ := h
  refine ⟨mg, g1, fun v hv b hb => ?_, fun v hv hm p hp => ?_⟩
  · rw [← g2 v hv b hb, (hc v hv).1 b hb, (hc' v hv).1 b hb]
  · rw [← g3 v hv hm p hp]
    cases h : Φs v with
    | none => exact absurd h (hall v hv)
    | some q => rw [(hc v hv).2 q h, (hc' v hv).2 q h]

end DPHG
end Verif
