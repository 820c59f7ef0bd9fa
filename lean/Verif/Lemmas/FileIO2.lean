import Verif.Lemmas.FileIO1
/-!
Splitting a file into ranges of lines.
-/
namespace Verif
namespace FileIO
open Text

variable {f : File} {pos : Nat} {s t : List Char}

theorem nextLine_spec {l e : List Char} (h : At f pos (l ++ (e ++ s))) (hl : ∀ c ∈ l, c ≠ '\n') (he : Eol e ∨ (e = [] ∧ s = [])) :
    nextLineUnchecked f pos = pos + l.length + e.length := by
  unfold nextLineUnchecked
  rw [h.drop]
  have hlen := h.len
  have hnone : l.findIdx? (· = '\n') = none := by
    rw [List.findIdx?_eq_none_iff]
    intro c hc
    simpa using hl c hc
  rw [List.findIdx?_append, hnone]
  rcases he with he | ⟨rfl, rfl⟩
  · cases he with
    | lf => simp [List.findIdx?_cons]; omega
    | crlf => simp [List.findIdx?_cons]; omega
  · simp at hlen ⊢; omega

theorem body_nonl {body : List Char} (h : CommentBody body) : ∀ c ∈ '%' :: body, c ≠ '\n' := by
  intro c hc
  rcases List.mem_cons.1 hc with rfl | hc
  · decide
  · exact (h c hc).2.1

theorem splitSkip_spec (hg : Good f) (hc : Comments s t) (ht : hd t ≠ '%') : ∀ (fuel pos : Nat), At f pos s → s.length < fuel →
    ∃ pos', splitSkip f fuel pos = .ok pos' ∧ At f pos' t := by
  induction hc with
  | nil t =>
    intro fuel pos h hf
    obtain ⟨fuel, rfl⟩ : ∃ k, fuel = k + 1 := ⟨fuel - 1, by omega⟩
    refine ⟨pos, ?_, h⟩
    unfold splitSkip
    rw [rd_hd hg h, ok_bind, if_neg (by simp [ht])]
  | @cons body e s t hb he hs ih =>
    intro fuel pos h hf
    obtain ⟨fuel, rfl⟩ : ∃ k, fuel = k + 1 := ⟨fuel - 1, by omega⟩
    unfold splitSkip
    have hl := h.len
    rw [rd_cons h, ok_bind, if_pos (by simp at hl ⊢; omega)]
    have h' : At f pos (('%' :: body) ++ (e ++ s)) := h
    rw [nextLine_spec h' (body_nonl hb) (Or.inl he)]
    exact ih ht _ _ h'.app.app (by simp at hf; omega)

theorem splitSkip_end (hg : Good f) (hc : Comments s t) (ht : End t) : ∀ (fuel pos : Nat), At f pos s → s.length < fuel →
    splitSkip f fuel pos = .ok f.length := by
  rcases ht with rfl | ⟨body, hb, ht⟩
  · intro fuel pos h hf
    obtain ⟨p, h1, h2⟩ := splitSkip_spec hg hc (by decide) fuel pos h hf
    rw [h1]
    have := h2.len
    simp at this
    rw [this]
  · induction hc with
    | nil t =>
      subst ht
      intro fuel pos h hf
      obtain ⟨fuel, rfl⟩ : ∃ k, fuel = k + 1 + 1 := ⟨fuel - 2, by simp at hf; omega⟩
      have hl := h.len
      have h' : At f pos (('%' :: body) ++ ([] ++ [])) := by simpa using h
      unfold splitSkip
      rw [rd_cons h, ok_bind, if_pos (by simp at hl ⊢; omega), nextLine_spec h' (body_nonl hb) (Or.inr ⟨rfl, rfl⟩)]
      have h2 : At f (pos + ('%' :: body).length + ([] : List Char).length) [] := h'.app.app
      unfold splitSkip
      rw [rd_nil hg h2, ok_bind, if_neg (by simp)]
      have := h2.len
      simp only [List.length_nil, Nat.add_zero] at this
      simp only [List.length_nil, Nat.add_zero]
      rw [this]
    | @cons body' e s t hb' he hs ih =>
      intro fuel pos h hf
      obtain ⟨fuel, rfl⟩ : ∃ k, fuel = k + 1 := ⟨fuel - 1, by omega⟩
      unfold splitSkip
      have h' : At f pos (('%' :: body') ++ (e ++ s)) := h
      have hl := h.len
      rw [rd_cons h, ok_bind, if_pos (by simp at hl ⊢; omega), nextLine_spec h' (body_nonl hb') (Or.inl he)]
      exact ih ht _ _ h'.app.app (by simp at hf; omega)

theorem Toks.chars {ns : List Nat} {l : List Char} (h : Toks ns l) : ∀ c ∈ l, c = ' ' ∨ ('0' ≤ c ∧ c ≤ '9') := by
  induction h with
  | nil => simp
  | cons hn _ _ ih =>
    intro c hc
    simp only [List.mem_append, List.mem_replicate] at hc
    rcases hc with (hc | hc) | hc
    · exact Or.inr (hn.2.1 c hc)
    · exact Or.inl hc.2
    · exact ih c hc

theorem Line.chars {ns : List Nat} {l : List Char} (h : Line ns l) : ∀ c ∈ l, c = ' ' ∨ ('0' ≤ c ∧ c ≤ '9') := by
  obtain ⟨a, s', rfl, h, -⟩ := h
  intro c hc
  simp only [List.mem_append, List.mem_replicate] at hc
  rcases hc with hc | hc
  · exact Or.inl hc.2
  · exact Toks.chars h c hc

theorem Line.nonl {ns : List Nat} {l : List Char} (h : Line ns l) : ∀ c ∈ l, c ≠ '\n' := by
  intro c hc
  rcases Line.chars h c hc with rfl | hc
  · decide
  · rintro rfl; revert hc; decide

theorem Line.hd_ne {ns : List Nat} {l e : List Char} (h : Line ns l) (he : Eol e ∨ (e = [] ∧ s = [])) : hd (l ++ (e ++ s)) ≠ '%' := by
  cases l with
  | nil =>
    have := eol_hd he
    intro h2
    have h3 : isEol '%' = true := by rw [← h2]; exact this
    revert h3; decide
  | cons c l =>
    show c ≠ '%'
    rcases Line.chars h c (by simp) with rfl | hc
    · decide
    · exact (digit_facts hc).2.2.2.2

/-- between the positions `p` and `p'` of the file there are comments and a line with the numbers `ns` -/
def LineAt (f : File) (ns : List Nat) (p p' : Nat) : Prop :=
  ∃ s l e s', At f p s ∧ Comments s (l ++ (e ++ s')) ∧ Line ns l ∧ (Eol e ∨ (e = [] ∧ s' = [])) ∧ At f p' s'

theorem Comments.suffix (h : Comments s t) : ∃ pre, s = pre ++ t := by
  induction h with
  | nil t => exact ⟨[], rfl⟩
  | @cons body e s t _ _ _ ih =>
    obtain ⟨pre, rfl⟩ := ih
    exact ⟨'%' :: (body ++ (e ++ pre)), by simp⟩

theorem Comments.trans {u : List Char} (h : Comments s t) (h2 : Comments t u) : Comments s u := by
  induction h with
  | nil t => exact h2
  | cons hb he _ ih => exact .cons hb he (ih h2)

theorem LineAt.lt {ns : List Nat} {p p' : Nat} (h : LineAt f ns p p') : p ≤ p' ∧ p' ≤ f.length := by
  obtain ⟨s, l, e, s', h1, h2, -, -, h5⟩ := h
  obtain ⟨pre, rfl⟩ := Comments.suffix h2
  have := h1.len
  have := h5.len
  simp at *
  omega

theorem Line.nil_toks {ns : List Nat} (h : Line ns []) : ns = [] := by
  obtain ⟨a, s', hs, h, -⟩ := h
  have : s' = [] := by
    have := congrArg List.length hs
    simp at this
    exact List.length_eq_zero_iff.1 (by omega)
  subst this
  generalize hk : ([] : List Char) = k at h
  cases h with
  | nil => rfl
  | cons hn =>
    simp at hk
    exact absurd hk.1 hn.1

/-- an empty range of characters belongs to an empty line at the end of the file -/
theorem LineAt.eq {ns : List Nat} {p p' : Nat} (h : LineAt f ns p p') (hp : p = p') : ns = [] := by
  subst hp
  obtain ⟨s, l, e, s', h1, h2, h3, h4, h5⟩ := h
  obtain ⟨pre, rfl⟩ := Comments.suffix h2
  have := h1.len
  have := h5.len
  simp at *
  have : l = [] := List.length_eq_zero_iff.1 (by omega)
  subst this
  exact Line.nil_toks h3

/-- before the position `pos` there is a newline -/
def AfterNl (f : File) (pos : Nat) : Prop := 0 < pos ∧ rd f (pos - 1) = .ok '\n'

theorem afterNl_eol {e : List Char} (h : At f pos (e ++ s)) (he : Eol e) : AfterNl f (pos + e.length) := by
  refine ⟨by cases he <;> simp, ?_⟩
  cases he with
  | lf => exact rd_cons (s := s) h
  | crlf => exact rd_cons (s := s) (At.tail (c := '\r') (s := '\n' :: s) h)

theorem afterNl_comments (h : Comments s t) : ∀ pos, At f pos s → AfterNl f pos → ∀ pos', At f pos' t → AfterNl f pos' := by
  induction h with
  | nil t =>
    intro pos h1 h2 pos' h3
    have a := h1.len
    have b := h3.len
    have : pos = pos' := by omega
    exact this ▸ h2
  | @cons body e s t hb he hs ih =>
    intro pos h1 h2 pos' h3
    have h' : At f pos (('%' :: body) ++ (e ++ s)) := h1
    exact ih _ h'.app.app (afterNl_eol h'.app he) pos' h3

/-- positions of the lines found so far -/
def Found (f : File) (nss : List (List Nat)) (ls : List Nat) : Prop :=
  ls.length = nss.length + 1 ∧ ∀ i < nss.length, LineAt f (nss.getD i []) (ls.getD i 0) (ls.getD (i + 1) 0)

/-- a first line with its comments -/
def Strict (ls : List Nat) (N : Nat) : Prop := ∀ i, i + 1 < N → ls.getD i 0 < ls.getD (i + 1) 0

theorem getD_append_left {l l' : List Nat} {i : Nat} (h : i < l.length) : (l ++ l').getD i 0 = l.getD i 0 := by
  simp [List.getD_eq_getElem?_getD, List.getElem?_append_left h]

theorem getD_append_last {l : List Nat} {x : Nat} : (l ++ [x]).getD l.length 0 = x := by
  simp [List.getD_eq_getElem?_getD]

/-- The loop of `split_lines`, started behind `done` lines: either all lines are found (and the position is behind the
comments that follow), or all but an empty last line without line ending. -/
theorem splitLoop_spec (hg : Good f) {tl : List Char → Nat → Prop}
    (htl : ∀ t pos, tl t pos → ∃ pos', splitSkip f (f.length + 1) pos = .ok pos') {nss : List (List Nat)} {s t : List Char} (h : Lines nss s t) :
    ∀ (fuel pos : Nat) (done : List (List Nat)) (ls : List Nat), At f pos s → Found f done ls → ls.getD done.length 0 = pos →
      (∀ i < done.length, ls.getD i 0 < ls.getD (i + 1) 0) → AfterNl f pos ∨ nss = [] →
      s.length + 1 < fuel → (∀ p, At f p t → tl t p) →
      ∃ pos' ls', splitLoop f (done.length + nss.length) fuel pos ls = .ok (pos', ls') ∧
        (∃ r, ls' = ls ++ r) ∧
        ((Found f (done ++ nss) ls' ∧ (∀ i < (done ++ nss).length, ls'.getD i 0 < ls'.getD (i + 1) 0) ∧
            (∃ p, At f p t ∧ ls'.getD (done ++ nss).length 0 = p ∧ splitSkip f (f.length + 1) p = .ok pos' ∧ (AfterNl f p ∨ t = [] ∨ nss = [])))
         ∨ (ls'.length < (done ++ nss).length + 1 ∧ AfterNl f pos' ∧ pos' = f.length ∧ t = [] ∧ Found f (done ++ nss) (ls' ++ [pos']) ∧
            (∀ i, i + 1 < (done ++ nss).length → ls'.getD i 0 < ls'.getD (i + 1) 0))) := by
  induction h with
  | nil t =>
    intro fuel pos done ls hat hfd hlast hstr hnl hf ht
    obtain ⟨fuel, rfl⟩ : ∃ k, fuel = k + 1 := ⟨fuel - 1, by omega⟩
    obtain ⟨pos', hp⟩ := htl t pos (ht pos hat)
    refine ⟨pos', ls, ?_, ⟨[], by simp⟩, Or.inl ⟨by simpa using hfd, by simpa using hstr, pos, hat, by simpa using hlast, hp, Or.inr (Or.inr rfl)⟩⟩
    unfold splitLoop
    rw [hp, ok_bind]
    rw [if_pos (by simp [hfd.1])]
  | @cons ns nss s l e s' t hc hl he hrest ih =>
    intro fuel pos done ls hat hfd hlast hstr hnl hf ht
    obtain ⟨fuel, rfl⟩ : ∃ k, fuel = k + 1 := ⟨fuel - 1, by omega⟩
    have hlen := hat.len
    have he' : Eol e ∨ (e = [] ∧ s' = []) := he.imp id (fun h => ⟨h.1, h.2.1⟩)
    obtain ⟨p1, hp1, hat1⟩ := splitSkip_spec hg hc (Line.hd_ne hl he') (f.length + 1) pos hat (by omega)
    have hlen1 := hat1.len
    have hnlp1 : AfterNl f p1 := by
      rcases hnl with hnl | hnl
      · exact afterNl_comments hc pos hat hnl p1 hat1
      · simp at hnl
    unfold splitLoop
    rw [hp1, ok_bind]
    have hat2 : At f (p1 + l.length + e.length) s' := hat1.app.app
    have hsub : p1 + l.length + e.length + s'.length = f.length := hat2.len
    have hpp1 : pos ≤ p1 := by
      obtain ⟨pre, rfl⟩ := Comments.suffix hc
      simp at hlen hlen1; omega
    have hline : LineAt f ns (ls.getD done.length 0) (p1 + l.length + e.length) :=
      ⟨s, l, e, s', hlast ▸ hat, hc, hl, he', hat2⟩
    have hfound : Found f (done ++ [ns]) (ls ++ [p1 + l.length + e.length]) := by
      refine ⟨by simp [hfd.1], ?_⟩
      intro i hi
      simp only [List.length_append, List.length_cons, List.length_nil] at hi
      by_cases hid : i < done.length
      · have h1 := hfd.2 i hid
        rw [getD_append_left (by rw [hfd.1]; omega), getD_append_left (by rw [hfd.1]; omega)]
        simpa [List.getD_eq_getElem?_getD, List.getElem?_append_left hid] using h1
      · have : i = done.length := by omega
        subst this
        rw [getD_append_left (by rw [hfd.1]; omega), ← hfd.1, getD_append_last]
        simpa [List.getD_eq_getElem?_getD] using hline
    by_cases hend : p1 ≥ f.length
    · -- nothing is left
      rw [if_pos (by simp [hend])]
      have hl0 : l = [] := List.length_eq_zero_iff.1 (by omega)
      have he0 : e = [] := List.length_eq_zero_iff.1 (by omega)
      subst hl0; subst he0
      have hrest2 : s' = [] ∧ nss = [] := by
        rcases he with he | ⟨-, he⟩
        · cases he
        · exact he
      obtain ⟨rfl, rfl⟩ := hrest2
      have ht0 : t = [] := by cases hrest; rfl
      refine ⟨p1, ls, rfl, ⟨[], by simp⟩, Or.inr ⟨by simp [hfd.1], hnlp1, by omega, ht0, ?_, ?_⟩⟩
      · simpa using hfound
      · intro i hi
        simp only [List.length_append, List.length_cons, List.length_nil] at hi
        exact hstr i (by omega)
    · rw [if_neg (by simp [hfd.1]; omega)]
      rw [nextLine_spec hat1 (Line.nonl hl) he']
      have hpos : 0 < l.length + e.length := by
        rcases Nat.eq_zero_or_pos (l.length + e.length) with h0 | h0
        · exfalso
          have he0 : e = [] := List.length_eq_zero_iff.1 (by omega)
          subst he0
          rcases he' with he' | ⟨-, rfl⟩
          · cases he'
          · simp at hsub; simp at h0; subst h0; simp at hsub; omega
        · exact h0
      have hnl2 : AfterNl f (p1 + l.length + e.length) ∨ (nss = [] ∧ t = []) := by
        rcases he with he | ⟨rfl, rfl, rfl⟩
        · exact Or.inl (afterNl_eol hat1.app he)
        · refine Or.inr ⟨rfl, ?_⟩
          cases hrest; rfl
      obtain ⟨pos', ls', h1, ⟨r, h2⟩, h3⟩ := ih fuel (p1 + l.length + e.length) (done ++ [ns]) (ls ++ [p1 + l.length + e.length]) hat2 hfound
        (by rw [List.length_append, List.length_cons, List.length_nil, Nat.zero_add, ← hfd.1, getD_append_last])
        (by
          intro i hi
          simp only [List.length_append, List.length_cons, List.length_nil] at hi
          rw [getD_append_left (by rw [hfd.1]; omega)]
          by_cases hid : i < done.length
          · rw [getD_append_left (by rw [hfd.1]; omega)]
            exact hstr i hid
          · have : i = done.length := by omega
            subst this
            rw [hlast, ← hfd.1, getD_append_last]
            omega)
        (hnl2.imp id (·.1)) (by omega) ht
      refine ⟨pos', ls', ?_, ⟨[p1 + l.length + e.length] ++ r, by rw [h2, List.append_assoc]⟩, ?_⟩
      · rw [← h1]
        simp only [List.length_append, List.length_cons, List.length_nil]
        congr 1; omega
      · rcases h3 with ⟨a, b, p, c1, c2, c3, c4⟩ | h3
        · refine Or.inl ⟨by simpa using a, by simpa using b, p, c1, by simpa using c2, c3, ?_⟩
          rcases c4 with c4 | c4 | c4
          · exact Or.inl c4
          · exact Or.inr (Or.inl c4)
          · subst c4
            cases hrest
            rcases hnl2 with h | ⟨-, h⟩
            · have a1 := c1.len
              have a2 := hat2.len
              have : p = p1 + l.length + e.length := by omega
              rw [this]; exact Or.inl h
            · exact Or.inr (Or.inl h)
        · refine Or.inr ?_
          simpa using h3

end FileIO
end Verif
