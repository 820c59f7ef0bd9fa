import Verif.Lemmas.FileIO3
import Verif.Lemmas.Factory
/-!
Reading lines of hMetis and Metis files.
-/
namespace Verif
namespace FileIO
open Text
open SMap (wr)

variable {f : File} {pos : Nat} {s t r : List Char}

theorem toks_hd {ns : List Nat} {l : List Char} (h : Toks ns l) (hr : isEol (hd r) = true) : hd (l ++ r) ≠ ' ' := by
  cases h with
  | nil => exact isEol_ne_space hr
  | @cons n ns ds b s hn hb hs =>
    have := hd_numeral hn (List.replicate b ' ' ++ s ++ r)
    rw [List.append_assoc, List.append_assoc]
    simp only [List.append_assoc] at this
    exact (digit_facts this).1

theorem toks_nil {l : List Char} (h : Toks [] l) : l = [] := by
  generalize hk : ([] : List Nat) = k at h
  cases h with
  | nil => rfl
  | cons => cases hk

/-- reading the next number of a line -/
theorem tok_spec (hg : Good f) {max fin a n : Nat} {ns : List Nat} {l : List Char} (h : At f pos (List.replicate a ' ' ++ (l ++ r)))
    (ht : Toks (n :: ns) l) (hr : isEol (hd r) = true) (hmax : n ≤ max) (hfin : pos + a + l.length ≤ fin) :
    ∃ pos' l', readNumber f max fin pos = .ok (n, pos') ∧ Toks ns l' ∧ At f pos' (l' ++ r) ∧ pos' + l'.length = pos + a + l.length ∧ pos < pos' := by
  generalize hk : n :: ns = k at ht
  cases ht with
  | nil => cases hk
  | @cons n' ns' ds b s hn hb hs =>
    injection hk with h1 h2
    subst h1; subst h2
    have h' : At f pos (List.replicate a ' ' ++ (ds ++ (List.replicate b ' ' ++ (s ++ r)))) := by simpa using h
    have hb' : 0 < b ∨ isEol (hd (s ++ r)) = true := by
      rcases hb with hb | hb
      · subst hb
        rw [toks_nil hs]; exact Or.inr hr
      · exact Or.inl hb
    have hlen : (ds ++ List.replicate b ' ' ++ s).length = ds.length + b + s.length := by simp; omega
    have hd0 : 0 < ds.length := List.length_pos_iff.2 hn.1
    refine ⟨pos + a + ds.length + b, s, readNumber_spec hg h' hn hb' (toks_hd hs hr) hmax (by omega), hs, ?_, by omega, by omega⟩
    have := h'.app.app.app
    simpa using this

theorem toks_cons_hd {ns : List Nat} {a n : Nat} {l : List Char} (ht : Toks (n :: ns) l) : isEol (hd (List.replicate a ' ' ++ (l ++ r))) = false := by
  cases a with
  | zero =>
    generalize hk : n :: ns = k at ht
    cases ht with
    | nil => cases hk
    | @cons n' ns' ds b s hn hb hs =>
      have := hd_numeral hn (List.replicate b ' ' ++ s ++ r)
      simp only [List.append_assoc] at this
      simp only [List.replicate_zero, List.nil_append, List.append_assoc]
      exact (digit_facts this).2.1
  | succ a => rw [List.replicate_succ]; rfl

theorem readPins_spec (hg : Good f) {n fin : Nat} (hr : isEol (hd r) = true) (hn : n < 2 ^ 32) : ∀ (pins : List Nat) (fuel pos a : Nat) (l : List Char) (acc : List Nat),
    At f pos (List.replicate a ' ' ++ (l ++ r)) → Toks (pins.map (· + 1)) l → (pins = [] → a = 0) → (∀ v ∈ pins, v < n) → pins.length < fuel →
    pos + a + l.length ≤ fin → readPins f n fin fuel pos acc = .ok (acc ++ pins, pos + a + l.length) := by
  intro pins
  induction pins with
  | nil =>
    intro fuel pos a l acc h ht ha _ hf hfin
    obtain ⟨fuel, rfl⟩ : ∃ k, fuel = k + 1 := ⟨fuel - 1, by simp at hf; omega⟩
    have := toks_nil ht
    subst this
    rw [ha rfl] at h ⊢
    unfold readPins
    have h : At f pos r := h
    rw [rd_hd hg h, ok_bind, if_pos hr]
    simp
  | cons v pins ih =>
    intro fuel pos a l acc h ht _ hv hf hfin
    obtain ⟨fuel, rfl⟩ : ∃ k, fuel = k + 1 := ⟨fuel - 1, by omega⟩
    unfold readPins
    have hvn := hv v (by simp)
    rw [List.map_cons] at ht
    rw [rd_hd hg h, ok_bind, toks_cons_hd ht]
    simp only [Bool.false_eq_true, if_false]
    obtain ⟨p', l', h1, h2, h3, h4, -⟩ := tok_spec hg h ht hr (max := maxU32) (by unfold maxU32; omega) hfin
    rw [h1, ok_bind]
    dsimp only
    rw [if_neg (by omega), if_neg (by omega), Nat.add_sub_cancel]
    rw [ih fuel p' 0 l' (acc ++ [v]) (by simpa using h3) h2 (fun _ => rfl) (fun x hx => hv x (List.mem_cons_of_mem _ hx))
      (by simp at hf; omega) (by omega)]
    have : p' + 0 + l'.length = pos + a + l.length := by omega
    rw [this, List.append_assoc]; rfl

/-- number of tokens is at most the number of characters -/
theorem toks_len {ns : List Nat} {l : List Char} (h : Toks ns l) : ns.length ≤ l.length := by
  induction h with
  | nil => simp
  | @cons n ns ds b s hn _ _ ih =>
    have := List.length_pos_iff.2 hn.1
    simp
    omega

theorem readHyperedge_spec (hg : Good f) {n fin w : Nat} {ew : Bool} {pins : List Nat} {l e s' : List Char}
    (hl : Line ((if ew then [w] else []) ++ pins.map (· + 1)) l) (h : At f pos (l ++ (e ++ s'))) (he : Eol e ∨ (e = [] ∧ s' = []))
    (hfin : pos + l.length + e.length ≤ fin) (hp : pins ≠ []) (hv : ∀ v ∈ pins, v < n) (hn : n < 2 ^ 32) (hw : ew = true → w < 2 ^ 31) :
    readHyperedge f n ew fin pos = .ok ((if ew then w else 0, Factory.dedupPins pins), pos + l.length + e.length) := by
  obtain ⟨a, l', rfl, ht, ha⟩ := hl
  have hr := eol_hd he
  have h' : At f pos (List.replicate a ' ' ++ (l' ++ (e ++ s'))) := by simpa using h
  have hlen : (List.replicate a ' ' ++ l').length = a + l'.length := by simp
  have hend : At f (pos + a + l'.length) (e ++ s') := by
    have := h'.app.app
    simpa using this
  have hll := h'.len
  simp only [List.length_append, List.length_replicate] at hll
  unfold readHyperedge
  cases ew with
  | true =>
    simp only [if_true] at ht ⊢
    obtain ⟨p', l2, h1, h2, h3, h4, -⟩ := tok_spec hg h' ht hr (max := maxI32) (fin := fin) (by have := hw rfl; unfold maxI32; omega) (by omega)
    rw [h1, ok_bind]
    dsimp only
    have htl := toks_len h2
    have htl : pins.length ≤ l2.length := by simpa using htl
    have h3l := h3.len
    simp only [List.length_append] at h3l
    rw [readPins_spec hg hr hn pins (f.length + 1) p' 0 l2 [] (by simpa using h3) h2 (fun _ => rfl) hv (by omega) (by omega), ok_bind]
    dsimp only
    have : p' + 0 + l2.length = pos + a + l'.length := by omega
    rw [this, doLineEnding_spec hg hend he, ok_bind, List.nil_append, if_neg hp, hlen, Nat.add_assoc pos]
  | false =>
    simp only [Bool.false_eq_true, if_false] at ht ⊢
    rw [ok_bind]
    dsimp only
    have ht : Toks (pins.map (· + 1)) l' := ht
    have htl := toks_len ht
    rw [List.length_map] at htl
    rw [readPins_spec hg hr hn pins (f.length + 1) pos a l' [] h' ht (fun hp' => absurd hp' hp) hv (by omega) (by omega), ok_bind]
    dsimp only
    rw [doLineEnding_spec hg hend he, ok_bind, List.nil_append, if_neg hp, hlen, Nat.add_assoc pos]

/-! ### Header -/

theorem readFormat_spec (hg : Good f) {ew vw : Bool} {l : List Char} (h : At f pos (l ++ r)) (hr : isEol (hd r) = true)
    (ht : Toks [(if vw then 10 else 0) + (if ew then 1 else 0)] l ∨ (ew = false ∧ vw = false ∧ Toks [] l)) :
    readFormat f pos = .ok (ew, vw, pos + l.length) := by
  have hlen := h.len
  simp only [List.length_append] at hlen
  unfold readFormat
  rcases ht with ht | ⟨rfl, rfl, ht⟩
  · rw [rd_hd hg h, ok_bind]
    have h' : At f pos (List.replicate 0 ' ' ++ (l ++ r)) := by simpa using h
    have := toks_cons_hd (r := r) (a := 0) ht
    simp only [List.replicate_zero, List.nil_append] at this
    rw [this]
    simp only [Bool.not_false, if_true]
    obtain ⟨p', l2, h1, h2, h3, h4, -⟩ := tok_spec hg h' ht hr (max := maxU32) (fin := f.length) (by unfold maxU32; cases ew <;> cases vw <;> decide) (by omega)
    have := toks_nil h2
    subst this
    rw [h1, ok_bind]
    dsimp only
    simp only [List.length_nil, Nat.add_zero] at h4
    rw [h4]
    cases ew <;> cases vw <;> simp
  · have := toks_nil ht
    subst this
    rw [rd_hd hg h, ok_bind]
    have h : isEol (hd ([] ++ r)) = true := hr
    rw [h]
    rfl

theorem readHeader_spec (hg : Good f) {a b : Nat} {ew vw : Bool} {l e s0 : List Char} (hc : Comments f.bytes (l ++ (e ++ s0)))
    (hh : Header a b ew vw l) (he : Eol e ∨ (e = [] ∧ s0 = [])) (ha : a < 2 ^ 32) (hb : b < 2 ^ 32) :
    ∃ pos, readHeader f = .ok (a, b, ew, vw, pos) ∧ At f pos s0 ∧ (Eol e → AfterNl f pos) := by
  have hr := eol_hd he
  have h0 : At f 0 f.bytes := At.zero
  have hne : hd (l ++ (e ++ s0)) ≠ '%' := by
    rcases hh with hh | ⟨-, -, hh⟩
    · exact Line.hd_ne hh he
    · exact Line.hd_ne hh he
  obtain ⟨p0, c1, c2⟩ := skipComments_spec hg hc hne (f.length + 1) 0 h0 (by unfold File.length; omega)
  have key : ∃ k l', l = List.replicate k ' ' ++ l' ∧ ∃ rest, Toks (a :: b :: rest) l' ∧ (rest = [(if vw then 10 else 0) + (if ew then 1 else 0)] ∨ (ew = false ∧ vw = false ∧ rest = [])) := by
    rcases hh with ⟨k, l', h1, h2, -⟩ | ⟨h3, h4, k, l', h1, h2, -⟩
    · exact ⟨k, l', h1, _, h2, Or.inl rfl⟩
    · exact ⟨k, l', h1, _, h2, Or.inr ⟨h3, h4, rfl⟩⟩
  obtain ⟨k, l', rfl, rest, ht, hrest⟩ := key
  have c3 : At f p0 (List.replicate k ' ' ++ (l' ++ (e ++ s0))) := by simpa using c2
  have hl3 := c3.len
  simp only [List.length_append, List.length_replicate] at hl3
  obtain ⟨p1, l1, d1, d2, d3, d4, -⟩ := tok_spec hg c3 ht hr (max := maxU32) (fin := f.length) (by unfold maxU32; omega) (by omega)
  obtain ⟨p2, l2, e1, e2, e3, e4, -⟩ := tok_spec hg (a := 0) (by simpa using d3) d2 hr (max := maxU32) (fin := f.length) (by unfold maxU32; omega) (by omega)
  have hfmt := readFormat_spec hg (ew := ew) (vw := vw) e3 hr (by
    rcases hrest with rfl | ⟨q1, q2, rfl⟩
    · exact Or.inl e2
    · exact Or.inr ⟨q1, q2, e2⟩)
  have hend : At f (p2 + l2.length) (e ++ s0) := e3.app
  refine ⟨p2 + l2.length + e.length, ?_, hend.app, fun he => afterNl_eol hend he⟩
  unfold readHeader
  rw [c1, ok_bind, d1, ok_bind]
  dsimp only
  rw [e1, ok_bind]
  dsimp only
  rw [hfmt, ok_bind]
  dsimp only
  rw [doLineEnding_spec hg hend he]
  rfl

/-! ### Node weights -/

theorem readWeights_spec (hg : Good f) {ws : List Nat} {s t : List Char} (h : Plain ws s t) : ∀ pos, At f pos s → (∀ w ∈ ws, w < 2 ^ 31) →
    ∃ pos', readWeights f ws.length pos = .ok (ws, pos') ∧ At f pos' t := by
  induction h with
  | nil t => intro pos h _; exact ⟨pos, rfl, h⟩
  | @cons w ws l e s' t hl he hs ih =>
    intro pos h hw
    have hr := eol_hd he
    obtain ⟨a, l', rfl, ht, -⟩ := hl
    have h' : At f pos (List.replicate a ' ' ++ (l' ++ (e ++ s'))) := by simpa using h
    have hlen := h'.len
    simp only [List.length_append, List.length_replicate] at hlen
    obtain ⟨p1, l1, d1, d2, d3, d4, d5⟩ := tok_spec hg h' ht hr (max := maxI32) (fin := f.length) (by have := hw w (by simp); unfold maxI32; omega) (by omega)
    have := toks_nil d2
    subst this
    have d3 : At f p1 (e ++ s') := d3
    obtain ⟨p', h1, h2⟩ := ih _ d3.app (fun x hx => hw x (List.mem_cons_of_mem _ hx))
    refine ⟨p', ?_, h2⟩
    have hl3 := d3.len
    rw [List.length_cons]
    unfold readWeights
    rw [if_neg (by omega), d1, ok_bind]
    dsimp only
    rw [doLineEnding_spec hg d3 he, ok_bind, h1]
    rfl

/-! ### Metis vertices -/

theorem readNeighbors_spec (hg : Good f) {n fin id : Nat} {ew : Bool} (hr : isEol (hd r) = true) (hn : n < 2 ^ 32) :
    ∀ (adj : List (Nat × Nat)) (fuel pos a : Nat) (l : List Char) (acc : List (Nat × Nat × Nat)),
    At f pos (List.replicate a ' ' ++ (l ++ r)) → Toks (adj.map (fun x => if ew then [x.1 + 1, x.2] else [x.1 + 1])).flatten l → (adj = [] → a = 0) →
    (∀ x ∈ adj, x.1 < n) → (ew = true → ∀ x ∈ adj, x.2 < 2 ^ 31) → l.length < fuel →
    pos + a + l.length ≤ fin → readNeighbors f n id ew fin fuel pos acc =
      .ok (acc ++ (adj.filter (fun x => id < x.1)).map (fun x => (id, x.1, if ew then x.2 else 0)), pos + a + l.length) := by
  intro adj
  induction adj with
  | nil =>
    intro fuel pos a l acc h ht ha _ _ hf hfin
    obtain ⟨fuel, rfl⟩ : ∃ k, fuel = k + 1 := ⟨fuel - 1, by omega⟩
    have := toks_nil ht
    subst this
    rw [ha rfl] at h ⊢
    unfold readNeighbors
    have h : At f pos r := h
    rw [rd_hd hg h, ok_bind, if_pos hr]
    simp
  | cons v adj ih =>
    intro fuel pos a l acc h ht _ hv hw hf hfin
    obtain ⟨fuel, rfl⟩ : ∃ k, fuel = k + 1 := ⟨fuel - 1, by omega⟩
    unfold readNeighbors
    have hvn := hv v (by simp)
    rw [List.map_cons, List.flatten_cons] at ht
    have ht' : ∃ rest, Toks ((v.1 + 1) :: rest) l ∧ rest = (if ew then [v.2] else []) ++ (adj.map (fun x => if ew then [x.1 + 1, x.2] else [x.1 + 1])).flatten := by
      cases ew with
      | true => exact ⟨_, ht, rfl⟩
      | false => exact ⟨_, ht, rfl⟩
    obtain ⟨rest, ht', hrest⟩ := ht'
    rw [rd_hd hg h, ok_bind, toks_cons_hd ht']
    simp only [Bool.false_eq_true, if_false]
    obtain ⟨p', l', h1, h2, h3, h4, h5⟩ := tok_spec hg h ht' hr (max := maxU32) (by unfold maxU32; omega) hfin
    have hll : l'.length < l.length := by
      generalize hk : (v.1 + 1) :: rest = k at ht'
      have := h3.len
      have := h.len
      simp only [List.length_append, List.length_replicate] at *
      -- the numeral takes at least one character
      cases a with
      | zero => omega
      | succ a =>
        have hx := h.app
        rw [List.length_replicate] at hx
        obtain ⟨p2, l2, g1, -, -, g4, g5⟩ := tok_spec hg (a := 0) (by simpa using hx) (hk ▸ ht' : Toks ((v.1 + 1) :: rest) l) hr (max := maxU32) (fin := fin) (by unfold maxU32; omega) (by omega)
        have : readNumber f maxU32 fin pos = readNumber f maxU32 fin (pos + (a + 1)) := by
          unfold readNumber
          have hsp : hd (l ++ r) ≠ ' ' := toks_hd (hk ▸ ht' : Toks ((v.1 + 1) :: rest) l) hr
          rw [skipSpaces' hg h hsp, skipSpaces' hg (a := 0) (by simpa using hx) hsp]
          rfl
        rw [this, g1] at h1
        injection h1 with h1
        injection h1 with _ h1
        omega
    rw [h1, ok_bind]
    dsimp only
    rw [if_neg (by omega), if_neg (by omega), Nat.add_sub_cancel]
    have happ : ∀ x, (if id < v.1 then acc ++ [(id, v.1, x)] else acc) = acc ++ (if id < v.1 then [(id, v.1, x)] else []) := by
      intro x; split <;> simp
    have hfil : ((v :: adj).filter (fun x => decide (id < x.1))).map (fun x => (id, x.1, if ew then x.2 else 0)) =
        (if id < v.1 then [(id, v.1, if ew then v.2 else 0)] else []) ++ (adj.filter (fun x => decide (id < x.1))).map (fun x => (id, x.1, if ew then x.2 else 0)) := by
      rw [List.filter_cons]
      by_cases hc : id < v.1 <;> simp [hc]
    cases ew with
    | true =>
      simp only [if_true] at hrest ih hfil ⊢
      subst hrest
      obtain ⟨p2, l2, g1, g2, g3, g4, g5⟩ := tok_spec hg (a := 0) (by simpa using h3) h2 hr (max := maxI32) (fin := fin) (by have := hw rfl v (by simp); unfold maxI32; omega) (by omega)
      rw [g1, ok_bind]
      dsimp only
      rw [ih fuel p2 0 l2 _ (by simpa using g3) g2 (fun _ => rfl) (fun x hx => hv x (List.mem_cons_of_mem _ hx)) (fun _ x hx => hw rfl x (List.mem_cons_of_mem _ hx)) (by omega) (by omega)]
      rw [hfil, happ, List.append_assoc]
      congr 2
      omega
    | false =>
      simp only [Bool.false_eq_true, if_false] at hrest ih hfil ⊢
      subst hrest
      rw [ok_bind]
      dsimp only
      rw [ih fuel p' 0 l' _ (by simpa using h3) h2 (fun _ => rfl) (fun x hx => hv x (List.mem_cons_of_mem _ hx)) (fun h => h.elim) (by omega) (by omega)]
      rw [hfil, happ, List.append_assoc]
      congr 2

theorem readVertex_spec (hg : Good f) {n fin w id : Nat} {ew vw : Bool} {adj : List (Nat × Nat)} {l e s' : List Char}
    (hl : Line ((if vw then [w] else []) ++ (adj.map (fun x => if ew then [x.1 + 1, x.2] else [x.1 + 1])).flatten) l) (h : At f pos (l ++ (e ++ s'))) (he : Eol e ∨ (e = [] ∧ s' = []))
    (hfin : pos + l.length + e.length ≤ fin) (hv : ∀ x ∈ adj, x.1 < n) (hn : n < 2 ^ 32) (hew : ew = true → ∀ x ∈ adj, x.2 < 2 ^ 31) (hw : vw = true → w < 2 ^ 31) :
    readVertex f n ew vw id fin pos = .ok ((id, (if vw then w else 0), (adj.filter (fun x => id < x.1)).map (fun x => (id, x.1, if ew then x.2 else 0))), pos + l.length + e.length) := by
  obtain ⟨a, l', rfl, ht, ha⟩ := hl
  have hr := eol_hd he
  have h' : At f pos (List.replicate a ' ' ++ (l' ++ (e ++ s'))) := by simpa using h
  have hlen : (List.replicate a ' ' ++ l').length = a + l'.length := by simp
  have hend : At f (pos + a + l'.length) (e ++ s') := by
    have := h'.app.app
    simpa using this
  have hll := h'.len
  simp only [List.length_append, List.length_replicate] at hll
  unfold readVertex
  cases vw with
  | true =>
    simp only [if_true] at ht ⊢
    obtain ⟨p', l2, h1, h2, h3, h4, -⟩ := tok_spec hg h' ht hr (max := maxI32) (fin := fin) (by have := hw rfl; unfold maxI32; omega) (by omega)
    rw [h1, ok_bind]
    dsimp only
    have h3l := h3.len
    simp only [List.length_append] at h3l
    rw [readNeighbors_spec hg hr hn adj (f.length + 1) p' 0 l2 [] (by simpa using h3) h2 (fun _ => rfl) hv hew (by omega) (by omega), ok_bind]
    dsimp only
    have : p' + 0 + l2.length = pos + a + l'.length := by omega
    rw [this, doLineEnding_spec hg hend he, ok_bind, List.nil_append, hlen, Nat.add_assoc pos]
  | false =>
    simp only [Bool.false_eq_true, if_false, List.nil_append] at ht ha ⊢
    rw [ok_bind]
    dsimp only
    rw [readNeighbors_spec hg hr hn adj (f.length + 1) pos a l' [] h' ht (fun hp => ha (by rw [hp]; rfl)) hv hew (by omega) (by omega), ok_bind]
    dsimp only
    rw [doLineEnding_spec hg hend he, ok_bind, List.nil_append, hlen, Nat.add_assoc pos]

end FileIO
end Verif
