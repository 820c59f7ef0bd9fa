import Verif.Model.FileIO
import Verif.Spec.FileFormat
/-!
Reading single numbers and lines.
-/
namespace Verif
namespace FileIO
open Text

/-- the file from position `pos` on is `s` -/
def At (f : File) (pos : Nat) (s : List Char) : Prop := ∃ pre, f.bytes = pre ++ s ∧ pre.length = pos

/-- the length is not a multiple of the page size -/
def Good (f : File) : Prop := 0 < f.page ∧ f.length % f.page ≠ 0

variable {f : File} {pos : Nat} {s t : List Char} {c : Char}

theorem At.len (h : At f pos s) : pos + s.length = f.length := by
  obtain ⟨pre, h1, h2⟩ := h
  simp [File.length, h1, ← h2]

theorem At.app {a : List Char} (h : At f pos (a ++ s)) : At f (pos + a.length) s := by
  obtain ⟨pre, h1, h2⟩ := h
  exact ⟨pre ++ a, by rw [h1, List.append_assoc], by simp [h2]⟩

theorem At.tail (h : At f pos (c :: s)) : At f (pos + 1) s := At.app (a := [c]) h

theorem At.zero : At f 0 f.bytes := ⟨[], rfl, rfl⟩

theorem At.drop (h : At f pos s) : f.bytes.drop pos = s := by
  obtain ⟨pre, h1, h2⟩ := h
  rw [h1, ← h2]; simp

theorem lt_mapped (hg : Good f) : f.length < f.mapped := by
  obtain ⟨h0, h1⟩ := hg
  unfold File.mapped
  have h3 : (f.length + f.page - 1) / f.page = f.length / f.page + 1 := by
    have hd := Nat.div_add_mod f.length f.page
    have hm := Nat.mod_lt f.length h0
    have : f.length + f.page - 1 = f.length % f.page - 1 + f.page * (f.length / f.page + 1) := by
      rw [Nat.mul_add]; omega
    rw [this, Nat.add_mul_div_left _ _ h0, Nat.div_eq_of_lt (by omega)]
    omega
  rw [h3]
  have := Nat.lt_mul_div_succ f.length h0
  rw [Nat.mul_comm]; exact this

theorem rd_cons (h : At f pos (c :: s)) : rd f pos = .ok c := by
  obtain ⟨pre, h1, h2⟩ := h
  unfold rd
  rw [if_pos (by simp [File.length, h1, ← h2])]
  rw [h1, ← h2, List.getD_eq_getElem?_getD, List.getElem?_append_right (Nat.le_refl _)]
  simp

theorem rd_nil (hg : Good f) (h : At f pos []) : rd f pos = .ok '\x00' := by
  have hl := h.len
  simp only [List.length_nil, Nat.add_zero] at hl
  unfold rd
  rw [if_neg (by omega), if_pos (by have := lt_mapped hg; omega)]

/-- first character, the zero byte at the end -/
def hd (s : List Char) : Char := s.headD '\x00'

theorem rd_hd (hg : Good f) (h : At f pos s) : rd f pos = .ok (hd s) := by
  cases s with
  | nil => exact rd_nil hg h
  | cons c s => exact rd_cons h

theorem ok_bind {α β : Type} (a : α) (g : α → M β) : (Except.ok a >>= g : M β) = g a := rfl

theorem skipSpaces_spec (hg : Good f) : ∀ (fuel a pos : Nat), At f pos (List.replicate a ' ' ++ s) → hd s ≠ ' ' → a < fuel →
    skipSpaces f fuel pos = .ok (pos + a) := by
  intro fuel
  induction fuel with
  | zero => intro a pos _ _ h; omega
  | succ fuel ih =>
    intro a pos h hs ha
    unfold skipSpaces
    cases a with
    | zero =>
      rw [rd_hd hg h, ok_bind]
      simp only [List.replicate_zero, List.nil_append]
      rw [if_neg hs]; simp
    | succ a =>
      rw [rd_hd hg h, ok_bind]
      rw [if_pos (by simp [hd, List.replicate_succ])]
      rw [List.replicate_succ, List.cons_append] at h
      rw [ih a (pos + 1) h.tail hs (by omega)]
      congr 1; omega

theorem skipSpaces' (hg : Good f) {a : Nat} (h : At f pos (List.replicate a ' ' ++ s)) (hs : hd s ≠ ' ') :
    skipSpaces f (f.length + 1) pos = .ok (pos + a) := by
  apply skipSpaces_spec hg _ _ _ h hs
  have := h.len
  simp at this; omega

/-- end of a number: a space, a line ending or the end of the file -/
def Stop (s : List Char) : Prop := hd s = ' ' ∨ isEol (hd s) = true

theorem digit_facts (h : '0' ≤ c ∧ c ≤ '9') : c ≠ ' ' ∧ isEol c = false ∧ ¬ (c < '0') ∧ ¬ (c > '9') ∧ c ≠ '%' := by
  have h1 : '0'.toNat ≤ c.toNat := h.1
  have h2 : c.toNat ≤ '9'.toNat := h.2
  have e0 : '0'.toNat = 48 := by decide
  have e9 : '9'.toNat = 57 := by decide
  have ne : ∀ d : Char, d.toNat < 48 → c ≠ d := by
    intro d hd heq; subst heq; omega
  refine ⟨ne _ (by decide), ?_, ?_, ?_, ne _ (by decide)⟩
  · simp [isEol, ne '\r' (by decide), ne '\n' (by decide), ne '\x00' (by decide)]
  · exact Char.not_lt.2 h.1
  · exact Char.not_lt.2 h.2

theorem value_cons_le (ds : List Char) (a : Nat) : a ≤ ds.foldl (fun a c => a * 10 + (c.toNat - 48)) a := by
  induction ds generalizing a with
  | nil => exact Nat.le_refl _
  | cons c ds ih =>
    refine Nat.le_trans ?_ (ih _)
    show a ≤ a * 10 + _
    omega

/-- the digit loop -/
theorem digits_spec (hg : Good f) {max fin : Nat} : ∀ (ds : List Char) (fuel pos number b : Nat) (s : List Char),
    At f pos (ds ++ (List.replicate b ' ' ++ s)) → (∀ c ∈ ds, '0' ≤ c ∧ c ≤ '9') → (0 < b ∨ isEol (hd s) = true) → hd s ≠ ' ' →
    ds.foldl (fun a c => a * 10 + (c.toNat - 48)) number ≤ max → ds.length < fuel → pos + ds.length + b ≤ fin →
    digits f max fin fuel pos number = .ok (ds.foldl (fun a c => a * 10 + (c.toNat - 48)) number, pos + ds.length + b) := by
  intro ds
  induction ds with
  | nil =>
    intro fuel pos number b s h _ hb hs hmax hf hfin
    obtain ⟨fuel, rfl⟩ : ∃ k, fuel = k + 1 := ⟨fuel - 1, by simp at hf; omega⟩
    simp only [List.nil_append] at h
    unfold digits
    simp only [List.length_nil, List.foldl_nil] at *
    split
    · rw [rd_hd hg h, ok_bind]
      have hst : (hd (List.replicate b ' ' ++ s) = ' ' || isEol (hd (List.replicate b ' ' ++ s))) = true := by
        cases b with
        | zero => simp only [List.replicate_zero, List.nil_append]; rcases hb with hb | hb; omega; simp [hb]
        | succ b => simp [hd, List.replicate_succ]
      rw [if_pos hst, skipSpaces' hg h hs, ok_bind]
      simp
    · have : b = 0 := by omega
      subst this; simp
  | cons c ds ih =>
    intro fuel pos number b s h hd' hb hs hmax hf hfin
    obtain ⟨fuel, rfl⟩ : ∃ k, fuel = k + 1 := ⟨fuel - 1, by omega⟩
    have hc := digit_facts (hd' c (by simp))
    unfold digits
    simp only [List.length_cons] at hf hfin
    rw [if_pos (by omega)]
    have h' : At f pos (c :: (ds ++ (List.replicate b ' ' ++ s))) := h
    rw [rd_cons h', ok_bind]
    rw [if_neg (by simp [hc.1, hc.2.1]), if_neg (by simp [hc.2.2.1, hc.2.2.2.1])]
    simp only [List.foldl_cons] at hmax ⊢
    have e0 : '0'.toNat = 48 := by decide
    have hle := value_cons_le ds (number * 10 + (c.toNat - 48))
    simp only [e0]
    rw [if_neg]
    · rw [ih fuel (pos + 1) _ b s h'.tail (fun x hx => hd' x (List.mem_cons_of_mem _ hx)) hb hs hmax (by omega) (by omega)]
      congr 2
      simp only [List.length_cons]; omega
    · rw [Nat.not_lt, Nat.le_div_iff_mul_le (by omega)]
      omega

theorem hd_numeral {ds : List Char} {n : Nat} (h : Numeral n ds) (s : List Char) : ('0' ≤ hd (ds ++ s) ∧ hd (ds ++ s) ≤ '9') := by
  obtain ⟨h0, h1, -⟩ := h
  cases ds with
  | nil => exact absurd rfl h0
  | cons c ds => exact h1 c (by simp)

theorem readNumber_spec (hg : Good f) {max fin a b n : Nat} {ds : List Char}
    (h : At f pos (List.replicate a ' ' ++ (ds ++ (List.replicate b ' ' ++ s)))) (hn : Numeral n ds)
    (hb : 0 < b ∨ isEol (hd s) = true) (hs : hd s ≠ ' ') (hmax : n ≤ max) (hfin : pos + a + ds.length + b ≤ fin) :
    readNumber f max fin pos = .ok (n, pos + a + ds.length + b) := by
  have hh := digit_facts (hd_numeral hn (List.replicate b ' ' ++ s))
  unfold readNumber
  rw [skipSpaces' hg h hh.1, ok_bind]
  have h' : At f (pos + a) (ds ++ (List.replicate b ' ' ++ s)) := by simpa using h.app
  rw [rd_hd hg h', ok_bind, hh.2.1]
  simp only [Bool.false_eq_true, if_false]
  have hlen := h.len
  rw [digits_spec hg ds (f.length + 1) (pos + a) 0 b s h' hn.2.1 hb hs (by have := hn.2.2; unfold value at this; omega) (by simp at hlen; omega) hfin]
  have := hn.2.2
  unfold value at this
  rw [this]

theorem isEol_ne_space (h : isEol c = true) : c ≠ ' ' := by
  intro hc; subst hc; revert h; decide

theorem eol_hd {e : List Char} (h : Eol e ∨ (e = [] ∧ s = [])) : isEol (hd (e ++ s)) = true := by
  rcases h with h | ⟨rfl, rfl⟩
  · cases h <;> rfl
  · rfl

theorem doLineEnding_spec (hg : Good f) {e : List Char} (h : At f pos (e ++ s)) (he : Eol e ∨ (e = [] ∧ s = [])) :
    doLineEnding f pos = .ok (pos + e.length) := by
  unfold doLineEnding
  rcases he with he | ⟨rfl, rfl⟩
  · cases he with
    | lf =>
      have h : At f pos ('\n' :: s) := h
      rw [rd_cons h, ok_bind]
      simp [isEol]
    | crlf =>
      have h : At f pos ('\r' :: '\n' :: s) := h
      rw [rd_cons h, ok_bind]
      have : isEol '\r' = true := by decide
      simp only [this, Bool.not_true, Bool.false_eq_true, if_false]
      rw [if_pos (by decide), rd_cons h.tail]
      simp [ok_bind]
  · simp only [List.append_nil] at h
    rw [rd_nil hg h, ok_bind]
    simp [isEol]

theorem gotoNextLine_spec (hg : Good f) {e : List Char} : ∀ (body : List Char) (fuel pos : Nat), At f pos (body ++ (e ++ s)) →
    (∀ c ∈ body, isEol c = false) → (Eol e ∨ (e = [] ∧ s = [])) → body.length < fuel →
    gotoNextLine f fuel pos = .ok (pos + body.length + e.length) := by
  intro body
  induction body with
  | nil =>
    intro fuel pos h _ he hf
    obtain ⟨fuel, rfl⟩ : ∃ k, fuel = k + 1 := ⟨fuel - 1, by simp at hf; omega⟩
    unfold gotoNextLine
    have h : At f pos (e ++ s) := h
    rw [rd_hd hg h, ok_bind, if_pos (eol_hd he), doLineEnding_spec hg h he]
    simp
  | cons c body ih =>
    intro fuel pos h hb he hf
    obtain ⟨fuel, rfl⟩ : ∃ k, fuel = k + 1 := ⟨fuel - 1, by simp at hf; omega⟩
    unfold gotoNextLine
    have h : At f pos (c :: (body ++ (e ++ s))) := h
    rw [rd_cons h, ok_bind, hb c (by simp)]
    simp only [Bool.false_eq_true, if_false]
    rw [ih fuel (pos + 1) h.tail (fun x hx => hb x (List.mem_cons_of_mem _ hx)) he (by simp at hf; omega)]
    congr 1; simp only [List.length_cons]; omega

theorem body_noeol {body : List Char} (h : CommentBody body) : ∀ c ∈ '%' :: body, isEol c = false := by
  intro c hc
  rcases List.mem_cons.1 hc with rfl | hc
  · decide
  · obtain ⟨h1, h2, h3⟩ := h c hc
    simp [isEol, h1, h2, h3]

/-- comments are skipped -/
theorem skipComments_spec (hg : Good f) (hc : Comments s t) (ht : hd t ≠ '%') : ∀ (fuel pos : Nat), At f pos s → s.length < fuel →
    ∃ pos', skipComments f fuel pos = .ok pos' ∧ At f pos' t := by
  induction hc with
  | nil t =>
    intro fuel pos h hf
    obtain ⟨fuel, rfl⟩ : ∃ k, fuel = k + 1 := ⟨fuel - 1, by omega⟩
    refine ⟨pos, ?_, h⟩
    unfold skipComments
    rw [rd_hd hg h, ok_bind, if_neg ht]
  | @cons body e s t hb he hs ih =>
    intro fuel pos h hf
    obtain ⟨fuel, rfl⟩ : ∃ k, fuel = k + 1 := ⟨fuel - 1, by omega⟩
    unfold skipComments
    rw [rd_cons h, ok_bind, if_pos rfl]
    have h' : At f pos (('%' :: body) ++ (e ++ s)) := h
    have hl := h.len
    rw [gotoNextLine_spec hg ('%' :: body) _ _ h' (body_noeol hb) (Or.inl he) (by simp at hl ⊢; omega), ok_bind]
    apply ih ht
    · have := h'.app.app
      exact this
    · simp at hf; omega

/-- also an unterminated comment at the end -/
theorem skipComments_end (hg : Good f) (hc : Comments s t) (ht : End t) : ∀ (fuel pos : Nat), At f pos s → s.length < fuel →
    skipComments f fuel pos = .ok f.length := by
  rcases ht with rfl | ⟨body, hb, ht⟩
  · intro fuel pos h hf
    obtain ⟨p, h1, h2⟩ := skipComments_spec hg hc (by decide) fuel pos h hf
    rw [h1]
    have := h2.len
    simp at this
    rw [this]
  · induction hc with
    | nil t =>
      subst ht
      intro fuel pos h hf
      obtain ⟨fuel, rfl⟩ : ∃ k, fuel = k + 1 + 1 := ⟨fuel - 2, by simp at hf; omega⟩
      have hl := h.len
      have h' : At f pos (('%' :: body) ++ ([] ++ [])) := by simpa using h
      unfold skipComments
      rw [rd_cons h, ok_bind, if_pos rfl,
        gotoNextLine_spec hg ('%' :: body) _ _ h' (body_noeol hb) (Or.inr ⟨rfl, rfl⟩) (by simp at hl ⊢; omega), ok_bind]
      have h2 : At f (pos + ('%' :: body).length + ([] : List Char).length) [] := h'.app.app
      unfold skipComments
      rw [rd_nil hg h2, ok_bind, if_neg (by decide)]
      have := h2.len
      simp only [List.length_nil, Nat.add_zero] at this
      simp only [List.length_nil, Nat.add_zero]
      rw [this]
    | @cons body' e s t hb' he hs ih =>
      intro fuel pos h hf
      obtain ⟨fuel, rfl⟩ : ∃ k, fuel = k + 1 := ⟨fuel - 1, by omega⟩
      unfold skipComments
      rw [rd_cons h, ok_bind, if_pos rfl]
      have h' : At f pos (('%' :: body') ++ (e ++ s)) := h
      have hl := h.len
      rw [gotoNextLine_spec hg ('%' :: body') _ _ h' (body_noeol hb') (Or.inl he) (by simp at hl ⊢; omega), ok_bind]
      apply ih ht
      · exact h'.app.app
      · simp at hf; omega

end FileIO
end Verif
