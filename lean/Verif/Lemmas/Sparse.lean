import Verif.Model.SparsePinCounts
import Verif.Spec.Table
import Mathlib.Data.List.Nodup
import Mathlib.Data.List.Perm.Basic
namespace Verif

/-- The used entries represent the row `t` of the table. -/
structure GoodL (k : Nat) (L : List PCEntry) (t : Nat → Nat) : Prop where
  nodup : (L.map Prod.fst).Nodup
  mem : ∀ x c, (x, c) ∈ L ↔ ∃ b, b < k ∧ x = some b ∧ c = t b ∧ 0 < t b

namespace GoodL
variable {k : Nat} {L : List PCEntry} {t : Nat → Nat}

theorem perm (h : GoodL k L t) {L' : List PCEntry} (hp : L'.Perm L) : GoodL k L' t :=
  ⟨(hp.map Prod.fst).nodup_iff.2 h.nodup, fun x c => by rw [hp.mem_iff]; exact h.mem x c⟩

theorem append (h : GoodL k L t) {p v : Nat} (hp : p < k) (h0 : t p = 0) (hv : 0 < v) :
    GoodL k (L ++ [(some p, v)]) (fun b => if b = p then v else t b) := by
  refine ⟨?_, ?_⟩
  · rw [List.map_append, List.nodup_append]
    refine ⟨h.nodup, by simp, ?_⟩
    intro a ha b hb
    simp only [List.map_cons, List.map_nil, List.mem_singleton] at hb
    subst hb
    rintro rfl
    rw [List.mem_map] at ha
    obtain ⟨⟨x, c⟩, hm, hx⟩ := ha
    obtain ⟨b, _, h2, _, h3⟩ := (h.mem x c).1 hm
    simp only at hx
    rw [hx] at h2
    have : b = p := by simpa using h2.symm
    subst this; omega
  · intro x c
    rw [List.mem_append, h.mem, List.mem_singleton]
    constructor
    · rintro (⟨b, h1, h2, h3, h4⟩ | h1)
      · have hne : b ≠ p := by rintro rfl; omega
        exact ⟨b, h1, h2, by simp [hne, h3], by simp [hne, h4]⟩
      · simp only [Prod.mk.injEq] at h1
        exact ⟨p, hp, h1.1, by simp [h1.2], by simp [hv]⟩
    · rintro ⟨b, h1, h2, h3, h4⟩
      by_cases hb : b = p
      · subst hb; right; simp [h2, h3]
      · left; simp only [hb, if_false] at h3 h4; exact ⟨b, h1, h2, h3, h4⟩

/-- the entry of a block is unique -/
theorem uniq (h : GoodL k L t) {i j : Nat} {x : Option Nat} {c d : Nat}
    (hi : L[i]? = some (x, c)) (hj : L[j]? = some (x, d)) : i = j := by
  have h1 : (L.map Prod.fst)[i]? = some x := by rw [List.getElem?_map, hi]; rfl
  have h2 : (L.map Prod.fst)[j]? = some x := by rw [List.getElem?_map, hj]; rfl
  obtain ⟨hil, _⟩ := List.getElem?_eq_some_iff.1 h1
  exact (List.getElem?_inj hil h.nodup).1 (h1.trans h2.symm)

theorem split (_h : GoodL k L t) {i : Nat} {x : PCEntry} (hi : L[i]? = some x) :
    L = L.take i ++ x :: L.drop (i + 1) := by
  obtain ⟨hlt, he⟩ := List.getElem?_eq_some_iff.1 hi
  rw [← he, List.getElem_cons_drop, List.take_append_drop]

theorem erase (h : GoodL k L t) {i p c : Nat} (hi : L[i]? = some (some p, c)) :
    GoodL k (L.eraseIdx i) (fun b => if b = p then 0 else t b) := by
  have hs := h.split hi
  have he : L.eraseIdx i = L.take i ++ L.drop (i + 1) := List.eraseIdx_eq_take_drop_succ _ _
  have hp : L.Perm ((some p, c) :: L.eraseIdx i) := by
    rw [he]; conv_lhs => rw [hs]
    exact List.perm_middle
  have hg := h.perm hp.symm
  have hn := hg.nodup
  simp only [List.map_cons, List.nodup_cons] at hn
  refine ⟨hn.2, ?_⟩
  intro x d
  constructor
  · intro hm
    obtain ⟨b, h1, h2, h3, h4⟩ := (hg.mem x d).1 (List.mem_cons_of_mem _ hm)
    have hb : b ≠ p := by
      rintro rfl
      apply hn.1
      rw [List.mem_map]; exact ⟨(x, d), hm, h2⟩
    exact ⟨b, h1, h2, by simp [hb, h3], by simp [hb, h4]⟩
  · rintro ⟨b, h1, h2, h3, h4⟩
    by_cases hb : b = p
    · simp [hb] at h4
    · simp only [hb, if_false] at h3 h4
      have := (hg.mem x d).2 ⟨b, h1, h2, h3, h4⟩
      rcases List.mem_cons.1 this with h5 | h5
      · simp only [Prod.mk.injEq] at h5
        rw [h5.1] at h2; exfalso; apply hb; simpa using h2.symm
      · exact h5

theorem set (h : GoodL k L t) {i p c v : Nat} (hp : p < k) (hi : L[i]? = some (some p, c))
    (hv : 0 < v) : GoodL k (L.set i (some p, v)) (fun b => if b = p then v else t b) := by
  have h1 := (h.erase hi).append hp (by simp) hv
  obtain ⟨hlt, _⟩ := List.getElem?_eq_some_iff.1 hi
  have h2 : (L.set i (some p, v)).Perm (L.eraseIdx i ++ [(some p, v)]) := by
    rw [List.set_eq_take_append_cons_drop, if_pos hlt, List.eraseIdx_eq_take_drop_succ]
    exact List.perm_middle.trans (List.perm_append_comm (l₁ := [_]))
  have h3 := h1.perm h2
  have e : (fun b => if b = p then v else if b = p then 0 else t b) =
      (fun b => if b = p then v else t b) := by
    funext b; by_cases hb : b = p <;> simp [hb]
  rw [e] at h3; exact h3

theorem find_none (h : GoodL k L t) {p : Nat} (hp : p < k)
    (hf : L.findIdx? (fun x => x.1 = some p) = none) : t p = 0 := by
  rw [List.findIdx?_eq_none_iff] at hf
  by_contra hne
  have := (h.mem (some p) (t p)).2 ⟨p, hp, rfl, rfl, by omega⟩
  have := hf _ this
  simp at this

theorem find_some (h : GoodL k L t) {p i : Nat}
    (hf : L.findIdx? (fun x => x.1 = some p) = some i) :
    L[i]? = some (some p, t p) ∧ 0 < t p ∧ p < k := by
  rw [List.findIdx?_eq_some_iff_getElem] at hf
  obtain ⟨hlt, h1, _⟩ := hf
  have h2 : L[i].1 = some p := by simpa using h1
  have hm : (L[i].1, L[i].2) ∈ L := List.getElem_mem hlt
  obtain ⟨b, h3, h4, h5, h6⟩ := (h.mem _ _).1 hm
  rw [h2] at h4
  have : p = b := by simpa using h4
  subst this
  refine ⟨?_, h6, h3⟩
  rw [List.getElem?_eq_getElem hlt]
  congr 1
  exact Prod.ext h2 h5

theorem find_pos (h : GoodL k L t) {p : Nat} (hp : p < k) (h0 : 0 < t p) :
    ∃ i, L.findIdx? (fun x => x.1 = some p) = some i := by
  cases hf : L.findIdx? (fun x => x.1 = some p) with
  | some i => exact ⟨i, rfl⟩
  | none => have := h.find_none hp hf; omega

end GoodL

/-- Invariant of a row that represents the table row `t`. -/
structure SRow.Good (k : Nat) (r : SRow) (t : Nat → Nat) : Prop where
  inl_len : r.inl.length = min k SRow.maxEntries
  conn_le : r.conn ≤ r.arr.length
  ext_nil : r.ext = false → r.extl = []
  good : GoodL k (r.arr.take r.conn) t

namespace SRow
variable {k : Nat} {r : SRow} {t : Nat → Nat}

theorem find_eq (h : Good k r t) (p : Nat) :
    r.find p = (r.arr.take r.conn).findIdx? (fun x => x.1 = some p) := by
  unfold find arr
  cases he : r.ext with
  | true => simp
  | false =>
    have h1 := h.conn_le
    have h2 := h.inl_len
    simp only [arr, he] at h1
    have : min r.conn maxEntries = r.conn := by simp at h1; omega
    simp [this]

theorem getD_take {L : List PCEntry} {n i : Nat} {x : PCEntry} (h : (L.take n)[i]? = some x) :
    L.getD i (none, 0) = x := by
  rw [List.getElem?_take] at h
  split at h
  · rw [List.getD_eq_getElem?_getD, h]; rfl
  · simp at h

theorem get_eq (h : Good k r t) {p : Nat} (hp : p < k) : r.get p = t p := by
  unfold get
  rw [find_eq h]
  cases hf : (r.arr.take r.conn).findIdx? (fun x => x.1 = some p) with
  | none => exact (h.good.find_none hp hf).symm
  | some i =>
    have := (h.good.find_some hf).1
    simp only [getD_take this]

theorem init_good : Good k (init (min k maxEntries)) (fun _ => 0) :=
  ⟨by simp [init], by simp [init], fun _ => rfl, ⟨by simp [init], by simp [init]⟩⟩

theorem setArr_arr (r : SRow) (i : Nat) (x : PCEntry) : (r.setArr i x).arr = r.arr.set i x := by
  unfold setArr arr; cases r.ext <;> simp

theorem setArr_conn (r : SRow) (i : Nat) (x : PCEntry) : (r.setArr i x).conn = r.conn := by
  unfold setArr; cases r.ext <;> simp

theorem setArr_ext (r : SRow) (i : Nat) (x : PCEntry) : (r.setArr i x).ext = r.ext := by
  unfold setArr; cases r.ext <;> simp

theorem setArr_inl_len (r : SRow) (i : Nat) (x : PCEntry) :
    (r.setArr i x).inl.length = r.inl.length := by
  unfold setArr; cases r.ext <;> simp

theorem setArr_extl (r : SRow) (i : Nat) (x : PCEntry) (h : r.ext = false) :
    (r.setArr i x).extl = r.extl := by
  unfold setArr; simp [h]

theorem lt_of_take {L : List PCEntry} {n i : Nat} {x : PCEntry} (h : (L.take n)[i]? = some x) :
    i < n := by
  rw [List.getElem?_take] at h
  split at h
  · assumption
  · simp at h

theorem setArr_good (h : Good k r t) {i p c v : Nat} (hp : p < k)
    (hi : (r.arr.take r.conn)[i]? = some (some p, c)) (hv : 0 < v) :
    Good k (r.setArr i (some p, v)) (fun b => if b = p then v else t b) := by
  refine ⟨by rw [setArr_inl_len]; exact h.inl_len, ?_, ?_, ?_⟩
  · rw [setArr_arr, setArr_conn, List.length_set]; exact h.conn_le
  · intro he; rw [setArr_ext] at he; rw [setArr_extl _ _ _ he]; exact h.ext_nil he
  · rw [setArr_arr, setArr_conn, List.take_set]
    exact h.good.set hp hi hv

theorem take_set_append {L : List PCEntry} {n : Nat} (h : n < L.length) (x : PCEntry) :
    (L.set n x).take (n + 1) = L.take n ++ [x] := by
  rw [List.take_add_one, List.take_set_of_le (by omega)]
  simp [h]

theorem take_append_exact {L : List PCEntry} {n : Nat} (h : n = L.length) (x : PCEntry) :
    (L ++ [x]).take (n + 1) = L.take n ++ [x] := by
  subst h; simp [List.take_of_length_le]

theorem addExternal_good (h : GoodL k (r.extl.take r.conn) t) (hle : r.conn ≤ r.extl.length)
    {p v : Nat} (hp : p < k) (h0 : t p = 0) (hv : 0 < v) :
    (r.addExternal p v).conn = r.conn ∧ (r.addExternal p v).inl = r.inl ∧
    (r.addExternal p v).ext = r.ext ∧
    r.conn + 1 ≤ (r.addExternal p v).extl.length ∧
    GoodL k ((r.addExternal p v).extl.take (r.conn + 1)) (fun b => if b = p then v else t b) := by
  unfold addExternal
  split
  · rename_i hlt
    refine ⟨rfl, rfl, rfl, ?_, ?_⟩
    · simp only [List.length_set]; omega
    · simp only [take_set_append hlt]; exact h.append hp h0 hv
  · rename_i hge
    refine ⟨rfl, rfl, rfl, ?_, ?_⟩
    · simp only [List.length_append, List.length_singleton]; omega
    · simp only [take_append_exact (by omega : r.conn = r.extl.length)]; exact h.append hp h0 hv

theorem add_good (h : Good k r t) {p v : Nat} (hp : p < k) (h0 : t p = 0) (hv : 0 < v) :
    Good k (r.add p v) (fun b => if b = p then v else t b) := by
  unfold add
  cases he : r.ext with
  | false =>
    have hg := h.good; have hle := h.conn_le; have hnil := h.ext_nil he
    simp only [arr, he, Bool.false_eq_true, if_false] at hg hle
    simp only [Bool.not_false, if_true]
    by_cases hlt : r.conn < r.inl.length
    · simp only [hlt, if_true]
      refine ⟨by simp [h.inl_len], ?_, ?_, ?_⟩
      · simp only [arr, Bool.false_eq_true, if_false, List.length_set]; omega
      · intro _; exact hnil
      · simp only [arr, Bool.false_eq_true, if_false, take_set_append hlt]
        exact hg.append hp h0 hv
    · simp only [hlt, if_false]
      have hov : r.overflow.extl = r.inl := by simp [overflow, hnil]
      have hoc : r.overflow.conn = r.conn := rfl
      obtain ⟨a1, a2, a3, a4, a5⟩ := addExternal_good (r := r.overflow) (k := k) (t := t)
        (by rw [hov, hoc]; exact hg) (by rw [hov, hoc]; exact hle) hp h0 hv
      have a3' : (r.overflow.addExternal p v).ext = true := a3
      refine ⟨?_, ?_, ?_, ?_⟩
      · show (r.overflow.addExternal p v).inl.length = _
        rw [a2]; exact h.inl_len
      · simp only [arr, a3', if_true, a1]; exact a4
      · intro hf; simp [a3'] at hf
      · simp only [arr, a3', if_true, a1]; exact a5
  | true =>
    have hg := h.good; have hle := h.conn_le
    simp only [arr, he, if_true] at hg hle
    simp only [Bool.not_true, Bool.false_eq_true, if_false]
    obtain ⟨a1, a2, a3, a4, a5⟩ := addExternal_good hg hle hp h0 hv
    have a3' : (r.addExternal p v).ext = true := by rw [a3, he]
    refine ⟨?_, ?_, ?_, ?_⟩
    · show (r.addExternal p v).inl.length = _
      rw [a2]; exact h.inl_len
    · simp only [arr, a3', if_true, a1]; exact a4
    · intro hf; simp [a3'] at hf
    · simp only [arr, a3', if_true, a1]; exact a5

theorem incr_good (h : Good k r t) {p : Nat} (hp : p < k) :
    (r.incr p).1 = t p + 1 ∧ Good k (r.incr p).2 (fun b => if b = p then t p + 1 else t b) := by
  unfold incr
  rw [find_eq h]
  cases hf : (r.arr.take r.conn).findIdx? (fun x => x.1 = some p) with
  | none =>
    have h0 := h.good.find_none hp hf
    simp only [h0]
    exact ⟨trivial, add_good h hp h0 (by omega)⟩
  | some i =>
    obtain ⟨h1, h2, h3⟩ := h.good.find_some hf
    simp only [getD_take h1]
    exact ⟨trivial, setArr_good h hp h1 (by omega)⟩

/-- Overwriting position `i` with the last used entry and shrinking removes entry `i`. -/
theorem swap_remove_perm {L : List PCEntry} {i c : Nat} (hi : i ≤ c) (hc : c < L.length) :
    ((L.set i (L.getD c (none, 0))).take c).Perm ((L.take (c + 1)).eraseIdx i) := by
  have hz : L.getD c (none, 0) = L[c] := by
    rw [List.getD_eq_getElem?_getD, List.getElem?_eq_getElem hc]; rfl
  rw [hz]
  have ht : L.take (c + 1) = L.take c ++ [L[c]] := by simp
  have hlen : (L.take c).length = c := by simp; omega
  rcases Nat.lt_or_eq_of_le hi with hlt | heq
  · rw [List.take_set, ht, List.set_eq_take_append_cons_drop, if_pos (by omega),
      List.eraseIdx_append_of_lt_length (by omega), List.eraseIdx_eq_take_drop_succ]
    exact List.perm_middle.trans (List.perm_append_comm (l₁ := [_]))
  · subst heq
    rw [List.take_set_of_le (by omega), ht, List.eraseIdx_append_of_length_le (by omega)]
    simp [hlen]

theorem decr_good (h : Good k r t) {p : Nat} (hp : p < k) (h0 : 0 < t p) :
    (r.decr p).1 = t p - 1 ∧ Good k (r.decr p).2 (fun b => if b = p then t p - 1 else t b) := by
  unfold decr
  rw [find_eq h]
  obtain ⟨i, hf⟩ := h.good.find_pos hp h0
  obtain ⟨h1, _, _⟩ := h.good.find_some hf
  have hilt := lt_of_take h1
  rw [hf]
  simp only [getD_take h1]
  by_cases hc : t p - 1 = 0
  · simp only [hc, if_true]
    have hle := h.conn_le
    have hcon : r.conn - 1 < r.arr.length := by omega
    -- list after writing the (zero) count into entry `i`
    let r1 := r.setArr i (some p, 0)
    have h1' : r1.arr = r.arr.set i (some p, 0) := setArr_arr _ _ _
    have hlen1 : r1.arr.length = r.arr.length := by rw [h1', List.length_set]
    have hbase : ((r1.arr.take (r.conn - 1 + 1)).eraseIdx i) = (r.arr.take r.conn).eraseIdx i := by
      have : r.conn - 1 + 1 = r.conn := by omega
      rw [this, h1', List.take_set, List.eraseIdx_set_eq]
    have herase := h.good.erase h1
    have hperm := swap_remove_perm (L := r1.arr) (i := i) (c := r.conn - 1) (by omega)
      (by rw [hlen1]; exact hcon)
    rw [hbase] at hperm
    have hgood := herase.perm hperm
    cases he : r.ext with
    | false =>
      have hr1 : r1.arr = r1.inl := by
        unfold arr; rw [show r1.ext = false by rw [setArr_ext, he]]; simp
      simp only [Bool.not_false, if_true]
      refine ⟨trivial, ?_, ?_, ?_, ?_⟩
      · simp only [List.length_set]; rw [setArr_inl_len]; exact h.inl_len
      · simp only [arr, setArr_ext, he, Bool.false_eq_true, if_false, List.length_set]
        rw [setArr_inl_len]
        simp only [arr, he, Bool.false_eq_true, if_false] at hle; omega
      · intro _; simp only []; rw [setArr_extl _ _ _ he]; exact h.ext_nil he
      · simp only [arr, setArr_ext, he, Bool.false_eq_true, if_false]
        rw [List.take_set_of_le (by omega)]
        rw [hr1] at hgood; exact hgood
    | true =>
      have hr1 : r1.arr = r1.extl := by
        unfold arr; rw [show r1.ext = true by rw [setArr_ext, he]]; simp
      simp only [Bool.not_true, Bool.false_eq_true, if_false]
      -- the linear search finds entry `i`
      have hpos : r1.extl.findIdx (fun x => x.1 = some p) = i := by
        rw [← hr1]
        have hi1 : i < r1.arr.length := by rw [hlen1]; omega
        have hi1' : i < (r.arr.set i (some p, 0)).length := by rw [List.length_set]; omega
        rw [List.findIdx_eq hi1]
        constructor
        · simp only [h1']; simp
        · intro j hj
          simp only [h1']
          rw [List.getElem_set_ne (by omega)]
          rw [List.findIdx?_eq_some_iff_getElem] at hf
          obtain ⟨hl, _, h3⟩ := hf
          have := h3 j hj
          rw [List.getElem_take] at this
          simpa using this
      refine ⟨trivial, ?_, ?_, ?_, ?_⟩
      · show r1.inl.length = _
        rw [setArr_inl_len]; exact h.inl_len
      · have : (r1.extl).length = r.arr.length := by rw [← hr1, hlen1]
        simp only [arr, setArr_ext, he, if_true, List.length_set]
        show _ ≤ r1.extl.length
        omega
      · intro hf'; simp [setArr_ext, he] at hf'
      · simp only [arr, setArr_ext, he, if_true]
        show GoodL k (List.take (r.conn - 1) (((r1.extl.set (r1.extl.findIdx _) _).set _ _).set _ _)) _
        rw [hpos, List.take_set_of_le (by omega), List.take_set_of_le (by omega)]
        rw [hr1] at hgood; exact hgood
  · simp only [hc, if_false]
    exact ⟨trivial, setArr_good h hp h1 (by omega)⟩

theorem connSet_eq (h : Good k r t) :
    (r.connSet k).Nodup ∧ (∀ b, b ∈ r.connSet k ↔ b < k ∧ 0 < t b) ∧
      (r.connSet k).length = r.conn := by
  have hg := h.good
  have hlen : (r.arr.take r.conn).length = r.conn := by
    rw [List.length_take]; have := h.conn_le; omega
  have key : ((r.connSet k).map some) = (r.arr.take r.conn).map Prod.fst := by
    unfold connSet
    have : ∀ L : List PCEntry, (∀ x ∈ L, ∃ b, b < k ∧ x = (some b, t b) ∧ 0 < t b) →
        (L.filterMap (fun x => match x.1 with
          | some b => if b < k ∧ 0 < x.2 then some b else none
          | none => none)).map some = L.map Prod.fst := by
      intro L
      induction L with
      | nil => intro _; rfl
      | cons a L ih =>
        intro hL
        obtain ⟨b, h1, h2, h3⟩ := hL a (by simp)
        subst h2
        rw [List.filterMap_cons]
        simp only [h1, h3, and_self, if_true, List.map_cons]
        rw [ih (fun x hx => hL x (List.mem_cons_of_mem _ hx))]
    apply this
    rintro ⟨x, c⟩ hx
    obtain ⟨b, h1, h2, h3, h4⟩ := (hg.mem x c).1 hx
    exact ⟨b, h1, by rw [h2, h3], h4⟩
  refine ⟨?_, ?_, ?_⟩
  · have := hg.nodup
    rw [← key] at this
    exact List.Nodup.of_map _ this
  · intro b
    have hb : b ∈ r.connSet k ↔ some b ∈ (r.connSet k).map some := by simp
    rw [hb, key, List.mem_map]
    constructor
    · rintro ⟨⟨x, c⟩, hm, hx⟩
      obtain ⟨b', h1, h2, _, h4⟩ := (hg.mem x c).1 hm
      simp only at hx
      rw [hx] at h2
      have : b = b' := by simpa using h2
      subst this; exact ⟨h1, h4⟩
    · rintro ⟨h1, h2⟩
      exact ⟨(some b, t b), (hg.mem _ _).2 ⟨b, h1, rfl, rfl, h2⟩, rfl⟩
  · have := congrArg List.length key
    rw [List.length_map, List.length_map, hlen] at this
    exact this

theorem contains_eq (h : Good k r t) {p : Nat} (hp : p < k) :
    r.contains p = decide (0 < t p) := by
  unfold contains
  rw [find_eq h]
  cases hf : (r.arr.take r.conn).findIdx? (fun x => x.1 = some p) with
  | none => have := h.good.find_none hp hf; simp [this]
  | some i => have := (h.good.find_some hf).2.1; simp [this]

end SRow
end Verif
