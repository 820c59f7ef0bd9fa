import Verif.Model.PinCountInPart
import Mathlib.Tactic.Ring
namespace Verif
namespace Packed

/-- parameters of a constructed table -/
structure Ok (s : Packed) : Prop where
  kpos : 0 < s.k
  maxpos : 0 < s.maxValue
  maxlt : s.maxValue + 1 < 2 ^ 32
  hbits : s.bits = numBitsPerElement s.maxValue
  hentries : s.entries = numEntriesPerValue s.k s.maxValue
  hvalues : s.values = numValuesPerHyperedge s.k s.maxValue
  hmask : s.mask = BitVec.ofNat 64 (2 ^ s.bits - 1)
  hsize : s.size = s.m * s.values

theorem init_ok {m k mv} (hk : 0 < k) (h0 : 0 < mv) (h1 : mv + 1 < 2 ^ 32) : (init m k mv).Ok :=
  ⟨hk, h0, h1, rfl, rfl, rfl, rfl, rfl⟩

theorem Ok.bits_le (h : Ok s) : s.bits ≤ 32 := by
  rw [h.hbits]; unfold numBitsPerElement
  apply Nat.clog_le_of_le_pow; have := h.maxlt; omega

theorem Ok.bits_pos (h : Ok s) : 0 < s.bits := by
  rw [h.hbits]; unfold numBitsPerElement
  apply Nat.clog_pos (by norm_num); have := h.maxpos; omega

theorem Ok.max_lt (h : Ok s) : s.maxValue < 2 ^ s.bits := by
  rw [h.hbits]; unfold numBitsPerElement
  have := Nat.le_pow_clog (b := 2) (by norm_num) (s.maxValue + 1); omega

theorem Ok.entries_pos (h : Ok s) : 0 < s.entries := by
  rw [h.hentries]; unfold numEntriesPerValue
  have h1 := h.bits_pos; have h2 := h.bits_le; rw [h.hbits] at h1 h2
  have : 0 < 64 / numBitsPerElement s.maxValue := Nat.div_pos (by omega) h1
  have := h.kpos
  omega

theorem Ok.pos_le (h : Ok s) (b : Nat) : s.bitPos b + s.bits ≤ 64 := by
  unfold bitPos
  have hb := Nat.mod_lt b h.entries_pos
  have he : s.entries ≤ 64 / s.bits := by
    rw [h.hentries, h.hbits]; unfold numEntriesPerValue; omega
  have : (b % s.entries + 1) * s.bits ≤ (64 / s.bits) * s.bits :=
    Nat.mul_le_mul_right _ (by omega)
  have := Nat.div_mul_le_self 64 s.bits
  have e1 : (b % s.entries + 1) * s.bits = b % s.entries * s.bits + s.bits := by ring
  omega

theorem Ok.valuePos_lt (h : Ok s) {e b : Nat} (he : e < s.m) (hb : b < s.k) :
    s.valuePos e b < s.size := by
  rw [h.hsize]; unfold valuePos
  have hv : b / s.entries < s.values := by
    rw [h.hvalues]; unfold numValuesPerHyperedge; rw [← h.hentries]; simp only []
    have hE := h.entries_pos
    rw [Nat.div_lt_iff_lt_mul hE]
    have hdm := Nat.div_add_mod s.k s.entries
    split
    · have := Nat.mod_lt s.k hE
      calc b < s.k := hb
        _ = s.entries * (s.k / s.entries) + s.k % s.entries := hdm.symm
        _ ≤ (s.k / s.entries + 1) * s.entries := by rw [Nat.add_mul, Nat.mul_comm]; omega
    · rename_i hz
      simp only [ne_eq, Decidable.not_not] at hz
      rw [hz, Nat.add_zero] at hdm
      rw [Nat.add_zero, Nat.mul_comm, hdm]; exact hb
  calc e * s.values + b / s.entries < e * s.values + s.values := by omega
    _ = (e + 1) * s.values := by ring
    _ ≤ s.m * s.values := Nat.mul_le_mul_right _ he

theorem mask_bit {bits i : Nat} (hb : bits ≤ 64) :
    (BitVec.ofNat 64 (2 ^ bits - 1)).getLsbD i = decide (i < bits) := by
  rw [BitVec.getLsbD_ofNat, Nat.testBit_two_pow_sub_one]
  by_cases h : i < bits <;> simp [h]; omega

/-- reading a packed entry, bit by bit -/
theorem word_get (h : Ok s) (w : BitVec 64) {pos : Nat} (hp : pos + s.bits ≤ 64) (i : Nat) :
    (((w &&& (s.mask <<< pos)) >>> pos).getLsbD i) = (decide (i < s.bits) && w.getLsbD (pos + i)) := by
  rw [h.hmask, BitVec.getLsbD_ushiftRight, BitVec.getLsbD_and, BitVec.getLsbD_shiftLeft,
    mask_bit (by have := h.bits_le; omega)]
  have : pos + i - pos = i := by omega
  rw [this]
  by_cases hi : i < s.bits
  · have : pos + i < 64 := by omega
    simp [hi, this]
  · simp [hi]

theorem word_upd (h : Ok s) (w : BitVec 64) {pos v : Nat} (hv : v < 2 ^ s.bits) (i : Nat) (hi : i < 64):
    (updateEntry s.mask w pos v).getLsbD i =
      if pos ≤ i ∧ i < pos + s.bits then v.testBit (i - pos) else w.getLsbD i := by
  unfold updateEntry
  rw [h.hmask, BitVec.getLsbD_or, BitVec.getLsbD_and, BitVec.getLsbD_not, BitVec.getLsbD_shiftLeft,
    BitVec.getLsbD_shiftLeft, mask_bit (by have := h.bits_le; omega), BitVec.getLsbD_ofNat]
  by_cases h1 : pos ≤ i
  · by_cases h2 : i < pos + s.bits
    · have h3 : i - pos < s.bits := by omega
      have h4 : ¬ i < pos := by omega
      have h5 : i - pos < 64 := by omega
      simp [h1, h2, h3, h4, h5, hi]
    · have h3 : ¬ i - pos < s.bits := by omega
      have h5 : v.testBit (i - pos) = false := by
        apply Nat.testBit_lt_two_pow
        exact lt_of_lt_of_le hv (Nat.pow_le_pow_right (by norm_num) (by omega))
      simp [h2, h3, h5, hi]
  · have h4 : i < pos := by omega
    simp [h1, h4, hi]

theorem get_set_same (h : Ok s) {e b v : Nat} (hv : v ≤ s.maxValue) :
    (s.set e b v).get e b = v := by
  have hv' : v < 2 ^ s.bits := lt_of_le_of_lt hv h.max_lt
  have hp := h.pos_le b
  have hv64 : v < 2 ^ 64 := lt_of_lt_of_le hv' (Nat.pow_le_pow_right (by norm_num) (by have := h.bits_le; omega))
  unfold get set
  simp only [valuePos, bitPos] at *
  simp only [if_true]
  have : ((updateEntry s.mask (s.data (e * s.values + b / s.entries)) (b % s.entries * s.bits) v &&&
      s.mask <<< (b % s.entries * s.bits)) >>> (b % s.entries * s.bits)) = BitVec.ofNat 64 v := by
    apply BitVec.eq_of_getLsbD_eq
    intro i hi
    rw [word_get h _ hp, BitVec.getLsbD_ofNat]
    by_cases h1 : i < s.bits
    · rw [word_upd h _ hv' _ (by omega)]
      simp [h1, hi]
    · have : v.testBit i = false := Nat.testBit_lt_two_pow
        (lt_of_lt_of_le hv' (Nat.pow_le_pow_right (by norm_num) (by omega)))
      simp [h1, this]
  rw [this, BitVec.toNat_ofNat, Nat.mod_eq_of_lt hv64]

theorem valuePos_set (s : Packed) (e b v e' b' : Nat) :
    (s.set e b v).valuePos e' b' = s.valuePos e' b' := rfl
theorem bitPos_set (s : Packed) (e b v b' : Nat) : (s.set e b v).bitPos b' = s.bitPos b' := rfl
theorem mask_set (s : Packed) (e b v : Nat) : (s.set e b v).mask = s.mask := rfl
theorem data_set (s : Packed) (e b v i : Nat) : (s.set e b v).data i =
    if i = s.valuePos e b then updateEntry s.mask (s.data i) (s.bitPos b) v else s.data i := rfl

theorem get_set_word (s : Packed) (e b v e' b' : Nat) : (s.set e b v).get e' b' =
    (((if s.valuePos e' b' = s.valuePos e b then
        updateEntry s.mask (s.data (s.valuePos e' b')) (s.bitPos b) v
       else s.data (s.valuePos e' b')) &&& (s.mask <<< s.bitPos b')) >>> s.bitPos b').toNat := rfl

theorem Ok.div_lt_values (h : Ok s) {c : Nat} (hc : c < s.k) : c / s.entries < s.values := by
  have h2 := Ok.valuePos_lt (s := { s with m := 1, size := 1 * s.values })
    ⟨h.kpos, h.maxpos, h.maxlt, h.hbits, h.hentries, h.hvalues, h.hmask, rfl⟩
    (e := 0) (b := c) (by simp) hc
  simpa [valuePos] using h2

/-- two entries sharing a word belong to the same hyperedge and different slots -/
theorem Ok.same_word (h : Ok s) {e b e' b' : Nat} (hb : b < s.k) (hb' : b' < s.k)
    (hw : s.valuePos e' b' = s.valuePos e b) :
    e' = e ∧ b' / s.entries = b / s.entries := by
  have h1 := h.div_lt_values hb; have h2 := h.div_lt_values hb'
  unfold valuePos at hw
  generalize b / s.entries = x at *
  generalize b' / s.entries = y at *
  have hee : e' = e := by
    rcases Nat.lt_trichotomy e' e with hlt | heq | hgt
    · have h3 : (e' + 1) * s.values ≤ e * s.values := Nat.mul_le_mul_right _ hlt
      have h4 : (e' + 1) * s.values = e' * s.values + s.values := by ring
      omega
    · exact heq
    · have h3 : (e + 1) * s.values ≤ e' * s.values := Nat.mul_le_mul_right _ hgt
      have h4 : (e + 1) * s.values = e * s.values + s.values := by ring
      omega
  subst hee
  exact ⟨rfl, by omega⟩

/-- distinct entries with the same word are in disjoint bit ranges -/
theorem get_set_other (h : Ok s) {e b v e' b' : Nat} (hb : b < s.k) (hb' : b' < s.k)
    (hv : v ≤ s.maxValue) (hne : (e', b') ≠ (e, b)) :
    (s.set e b v).get e' b' = s.get e' b' := by
  have hv' : v < 2 ^ s.bits := lt_of_le_of_lt hv h.max_lt
  rw [get_set_word]
  by_cases hw : s.valuePos e' b' = s.valuePos e b
  · obtain ⟨hee, hdiv⟩ := h.same_word hb hb' hw
    subst hee
    have hmod : b' % s.entries ≠ b % s.entries := by
      intro hm; apply hne
      have a1 := Nat.div_add_mod b s.entries; have a2 := Nat.div_add_mod b' s.entries
      rw [hdiv, hm] at a2
      have : b' = b := by omega
      rw [this]
    have hp := h.pos_le b; have hp' := h.pos_le b'
    rw [if_pos hw]
    unfold get
    simp only []
    congr 1
    apply BitVec.eq_of_getLsbD_eq
    intro i hi
    rw [word_get h _ hp', word_get h _ hp']
    by_cases h3 : i < s.bits
    · rw [word_upd h _ hv' _ (by omega)]
      have hdisj : ¬ (s.bitPos b ≤ s.bitPos b' + i ∧ s.bitPos b' + i < s.bitPos b + s.bits) := by
        unfold bitPos
        generalize b' % s.entries = x at *
        generalize b % s.entries = y at *
        rcases Nat.lt_or_gt_of_ne hmod with hlt | hgt
        · have h5 : (x + 1) * s.bits ≤ y * s.bits := Nat.mul_le_mul_right _ hlt
          have h6 : (x + 1) * s.bits = x * s.bits + s.bits := by ring
          omega
        · have h5 : (y + 1) * s.bits ≤ x * s.bits := Nat.mul_le_mul_right _ hgt
          have h6 : (y + 1) * s.bits = y * s.bits + s.bits := by ring
          omega
      rw [if_neg hdisj]
    · simp [h3]
  · rw [if_neg hw]; rfl

theorem get_le (h : Ok s) (e b : Nat) : s.get e b < 2 ^ s.bits := by
  unfold get
  simp only []
  have hp := h.pos_le b
  apply Nat.lt_pow_two_of_testBit
  intro i hi
  have h2 := word_get h (s.data (s.valuePos e b)) hp i
  simp only [BitVec.getLsbD] at h2
  rw [h2]
  have : ¬ i < s.bits := by omega
  simp [this]

theorem get_init {m k mv e b : Nat} : (init m k mv).get e b = 0 := by
  simp [get, init]

theorem set_ok (h : Ok s) (e b v : Nat) : (s.set e b v).Ok :=
  ⟨h.kpos, h.maxpos, h.maxlt, h.hbits, h.hentries, h.hvalues, h.hmask, h.hsize⟩

end Packed
end Verif
