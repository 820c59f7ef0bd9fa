import Verif.Lemmas.Packed
/-!
# C07  Compressed pin counts behave like a plain table
-/
namespace Verif
open Packed

/-- The packed table represents the plain table `T`. -/
def Packed.Repr (s : Packed) (m k mx : Nat) (T : Table) : Prop :=
  s.Ok ∧ s.m = m ∧ s.k = k ∧ s.maxValue = mx ∧
  ∀ e b, e < m → b < k → s.get e b = T e b ∧ T e b ≤ mx

theorem Packed.repr_set {s : Packed} {m k mx : Nat} {T : Table} (h : s.Repr m k mx T)
    {e b v : Nat} (hb : b < k) (hv : v ≤ mx) : (s.set e b v).Repr m k mx (T.upd e b v) := by
  obtain ⟨hok, hm, hk, hmx, hg⟩ := h
  subst hm; subst hk; subst hmx
  refine ⟨set_ok hok e b v, rfl, rfl, rfl, ?_⟩
  intro e' b' he' hb'
  unfold Table.upd
  by_cases hc : e' = e ∧ b' = b
  · rw [if_pos hc]; obtain ⟨rfl, rfl⟩ := hc
    exact ⟨get_set_same hok hv, hv⟩
  · rw [if_neg hc, get_set_other hok hb hb' hv (by intro h; apply hc; simpa using h)]
    exact hg e' b' he' hb'

theorem Packed.repr_exec {s : Packed} {m k mx : Nat} {T : Table} (h : s.Repr m k mx T)
    {o : PCOp} (hl : o.Legal m k mx T) :
    (s.exec o).1 = o.result T ∧ (s.exec o).2.Repr m k mx (o.apply T) := by
  cases o with
  | set e b v => exact ⟨rfl, repr_set h hl.2.1 hl.2.2⟩
  | incr e b =>
    obtain ⟨h1, h2, h3⟩ := hl
    have hg := (h.2.2.2.2 e b h1 h2).1
    simp only [exec, incr, PCOp.result, PCOp.apply, hg]
    exact ⟨trivial, repr_set h h2 h3⟩
  | decr e b =>
    obtain ⟨h1, h2, h3⟩ := hl
    have hg := (h.2.2.2.2 e b h1 h2)
    simp only [exec, decr, PCOp.result, PCOp.apply, hg.1]
    exact ⟨trivial, repr_set h h2 (by omega)⟩

theorem Packed.repr_execAll {m k mx : Nat} (os : List PCOp) :
    ∀ {s : Packed} {T : Table}, s.Repr m k mx T → PCOp.AllLegal m k mx T os →
    (s.execAll os).1 = PCOp.results T os ∧ (s.execAll os).2.Repr m k mx (PCOp.run T os) := by
  induction os with
  | nil => intro s T h _; exact ⟨rfl, h⟩
  | cons o os ih =>
    intro s T h hl
    obtain ⟨h1, h2⟩ := repr_exec h hl.1
    obtain ⟨h3, h4⟩ := ih h2 hl.2
    exact ⟨by simp only [execAll, PCOp.results, h1, h3], h4⟩

theorem Packed.repr_init {m k mx : Nat} (hk : 0 < k) (h0 : 0 < mx) (h1 : mx + 1 < 2 ^ 32) :
    (init m k mx).Repr m k mx (fun _ _ => 0) :=
  ⟨init_ok hk h0 h1, rfl, rfl, rfl, fun _ _ _ _ => ⟨get_init, Nat.zero_le _⟩⟩

/-- **C07.**  For every number of hyperedges `m`, every `k ≥ 1`, every maximum value in
`1 .. 2^32-2` and every legal history of set / increment / decrement calls on a freshly
constructed table: every call returns what it would return on a plain table, and
afterwards every entry reads as in the plain table. -/
theorem C07_packed_refines_table (m k mx : Nat) (hk : 1 ≤ k) (h0 : 1 ≤ mx)
    (h1 : mx ≤ 2 ^ 32 - 2) (os : List PCOp) (hl : PCOp.AllLegal m k mx (fun _ _ => 0) os) :
    ((init m k mx).execAll os).1 = PCOp.results (fun _ _ => 0) os ∧
    ∀ e b, e < m → b < k →
      ((init m k mx).execAll os).2.get e b = PCOp.run (fun _ _ => 0) os e b := by
  obtain ⟨h2, h3⟩ := repr_execAll os (repr_init (m := m) hk h0 (by omega)) hl
  exact ⟨h2, fun e b he hb => (h3.2.2.2.2 e b he hb).1⟩

/-- **C07, isolation.** In every reachable table, storing a value at `(e, b)` makes `(e, b)`
read as that value and leaves every other entry unchanged. -/
theorem C07_write_isolated (m k mx : Nat) (hk : 1 ≤ k) (h0 : 1 ≤ mx) (h1 : mx ≤ 2 ^ 32 - 2)
    (os : List PCOp) (hl : PCOp.AllLegal m k mx (fun _ _ => 0) os)
    (e b v : Nat) (he : e < m) (hb : b < k) (hv : v ≤ mx) :
    let s := ((init m k mx).execAll os).2
    (s.set e b v).get e b = v ∧
    ∀ e' b', e' < m → b' < k → ¬ (e' = e ∧ b' = b) → (s.set e b v).get e' b' = s.get e' b' := by
  intro s
  obtain ⟨_, h3⟩ := repr_execAll os (repr_init (m := m) hk h0 (by omega)) hl
  have h4 := repr_set (e := e) h3 hb hv
  refine ⟨?_, ?_⟩
  · rw [(h4.2.2.2.2 e b he hb).1]; simp [Table.upd]
  · intro e' b' he' hb' hne
    rw [(h4.2.2.2.2 e' b' he' hb').1, (h3.2.2.2.2 e' b' he' hb').1]
    simp only [Table.upd, if_neg hne]

/-- **C07, memory safety.** Every legal call of every legal history touches a word inside the
allocated array, and every shift amount is below the word width. -/
theorem C07_index_in_bounds (m k mx : Nat) (hk : 1 ≤ k) (h0 : 1 ≤ mx) (h1 : mx ≤ 2 ^ 32 - 2)
    (os : List PCOp) (hl : PCOp.AllLegal m k mx (fun _ _ => 0) os)
    (o : PCOp) (ho : o.Legal m k mx (PCOp.run (fun _ _ => 0) os)) :
    let s := ((init m k mx).execAll os).2
    s.touched o < s.size ∧ s.size = (init m k mx).size ∧
      ∀ b, b < k → s.bitPos b < 64 := by
  intro s
  obtain ⟨_, hok, hm, hkk, hmx, _⟩ := repr_execAll os (repr_init (m := m) hk h0 (by omega)) hl
  refine ⟨?_, ?_, ?_⟩
  · cases o with
    | set e b v => exact hok.valuePos_lt (by rw [hm]; exact ho.1) (by rw [hkk]; exact ho.2.1)
    | incr e b => exact hok.valuePos_lt (by rw [hm]; exact ho.1) (by rw [hkk]; exact ho.2.1)
    | decr e b => exact hok.valuePos_lt (by rw [hm]; exact ho.1) (by rw [hkk]; exact ho.2.1)
  · show ((init m k mx).execAll os).2.size = _
    rw [hok.hsize, hok.hvalues, hm, hkk, hmx]; rfl
  · intro b _
    have := hok.pos_le b; have := hok.bits_pos
    show ((init m k mx).execAll os).2.bitPos b < 64
    omega

theorem Packed.repr_snapshot {s : Packed} {m k mx : Nat} {T : Table} (hr : s.Repr m k mx T)
    (e : Nat) (he : e < m) :
    let t := s.snapshot e
    (∀ b, b < k → t.get b = T e b) ∧
    (∀ b v, b < k → v ≤ mx → (t.set b v).get b = v ∧
      ∀ b', b' < k → b' ≠ b → (t.set b v).get b' = t.get b') := by
  intro t
  obtain ⟨hok, hm, hkk, hmx, hg⟩ := hr
  -- view the snapshot as a packed table with one hyperedge
  let p : Packed := { s with m := 1, size := 1 * s.values, data := t.data }
  have hp : p.Ok := ⟨hok.kpos, hok.maxpos, hok.maxlt, hok.hbits, hok.hentries, hok.hvalues,
    hok.hmask, rfl⟩
  have htb : t.bits = s.bits := by
    show numBitsPerElement s.maxValue = _; rw [hok.hbits]
  have hte : t.entries = s.entries := by
    show numEntriesPerValue s.k s.maxValue = _; rw [hok.hentries]
  have htm : t.mask = s.mask := by
    show BitVec.ofNat 64 (2 ^ numBitsPerElement s.maxValue - 1) = _; rw [hok.hmask, hok.hbits]
  have hget : ∀ b, t.get b = p.get 0 b := by
    intro b
    show _ = ((t.data (0 * s.values + b / s.entries) &&& (s.mask <<< ((b % s.entries) * s.bits)))
      >>> ((b % s.entries) * s.bits)).toNat
    rw [Nat.zero_mul, Nat.zero_add]; unfold Snapshot.get
    rw [htb, hte, htm]
  have hset : ∀ b v b', (t.set b v).get b' = (p.set 0 b v).get 0 b' := by
    intro b v b'
    rw [get_set_word]
    show _ = (((if 0 * s.values + b' / s.entries = 0 * s.values + b / s.entries then
      updateEntry s.mask (t.data (0 * s.values + b' / s.entries)) ((b % s.entries) * s.bits) v
      else t.data (0 * s.values + b' / s.entries)) &&& (s.mask <<< ((b' % s.entries) * s.bits)))
      >>> ((b' % s.entries) * s.bits)).toNat
    simp only [Nat.zero_mul, Nat.zero_add]
    unfold Snapshot.get Snapshot.set
    simp only [htb, hte, htm]
  refine ⟨?_, ?_⟩
  · intro b hb
    rw [← (hg e b he hb).1]
    unfold Snapshot.get Packed.get
    simp only [htb, hte, htm]
    have hlt : b / s.entries < numValuesPerHyperedge s.k s.maxValue := by
      rw [← hok.hvalues]; exact hok.div_lt_values (by omega)
    have : t.data (b / s.entries) = s.data (s.valuePos e b) := by
      show (if b / s.entries < numValuesPerHyperedge s.k s.maxValue then _ else _) = _
      rw [if_pos hlt]; rfl
    rw [this]; rfl
  · intro b v hb hv
    refine ⟨?_, ?_⟩
    · rw [hset]; exact get_set_same hp (by show v ≤ s.maxValue; omega)
    · intro b' hb' hne
      rw [hset, hget]
      exact get_set_other hp (by show b < s.k; omega) (by show b' < s.k; omega)
        (by show v ≤ s.maxValue; omega) (by simpa using hne)

/-- **C07, snapshot.** A snapshot of hyperedge `e` reads like row `e` of the table, also after
later changes of the table, and writing into the snapshot changes only the written entry. -/
theorem C07_snapshot (m k mx : Nat) (hk : 1 ≤ k) (h0 : 1 ≤ mx) (h1 : mx ≤ 2 ^ 32 - 2)
    (os : List PCOp) (hl : PCOp.AllLegal m k mx (fun _ _ => 0) os)
    (e : Nat) (he : e < m) :
    let t := ((init m k mx).execAll os).2.snapshot e
    (∀ b, b < k → t.get b = PCOp.run (fun _ _ => 0) os e b) ∧
    (∀ b v, b < k → v ≤ mx → (t.set b v).get b = v ∧
      ∀ b', b' < k → b' ≠ b → (t.set b v).get b' = t.get b') :=
  repr_snapshot (repr_execAll os (repr_init (m := m) hk h0 (by omega)) hl).2 e he

/-- The hypotheses are satisfiable by a history that uses several words per hyperedge
(k = 23 blocks, values up to 5: three bits, 21 entries per word, two words). -/
example : PCOp.AllLegal 2 23 5 (fun _ _ => 0)
    [.set 1 22 5, .incr 0 20, .incr 0 20, .decr 0 20, .set 0 21 4, .decr 1 22] := by
  simp [PCOp.AllLegal, PCOp.Legal, PCOp.apply, Table.upd]

example : (init 2 23 5).values = 2 ∧ (init 2 23 5).entries = 21 := by decide

end Verif
