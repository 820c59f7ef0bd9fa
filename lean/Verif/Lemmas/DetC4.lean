import Verif.Lemmas.DetC3
/-!
# Lemmas: `approveNodes` of the deterministic coarsener
-/
namespace Verif
namespace DetC
open SMap (wr)
variable {α : Type} {c : Cfg α}

/-- the nodes of the sorted list with proposition `t` -/
def grp (p : Nat → Nat) (hv : List Nat) (t : Nat) : List Nat := hv.filter (fun v => decide (p v = t))
/-- where they start -/
def gst (p : Nat → Nat) (hv : List Nat) (t : Nat) : Nat := (hv.filter (fun v => decide (p v < t))).length

theorem comp_le {p : Nat → Nat} {a b : Nat} (h : comp c p a b) : p a ≤ p b := by
  unfold comp at h; omega

theorem sorted_split {p : Nat → Nat} {hv : List Nat} (h : hv.Pairwise (fun a b => p a ≤ p b)) (t : Nat) :
    hv = hv.filter (fun v => decide (p v < t)) ++ grp p hv t ++ hv.filter (fun v => decide (t < p v)) := by
  induction hv with
  | nil => rfl
  | cons a l ih =>
    obtain ⟨h1, h2⟩ := List.pairwise_cons.1 h
    have ih := ih h2
    have hnil : ∀ (P : Nat → Bool), (∀ v ∈ l, P v = false) → l.filter P = [] := fun P hP => List.filter_eq_nil_iff.2 fun v hv => by simp [hP v hv]
    rcases Nat.lt_trichotomy (p a) t with hlt | heq | hgt
    · have e1 : (decide (p a < t)) = true := by simpa using hlt
      have e2 : (decide (p a = t)) = false := by simpa using (by omega : p a ≠ t)
      have e3 : (decide (t < p a)) = false := by simpa using (by omega : p a ≤ t)
      simp only [grp, List.filter_cons, e1, e2, e3, if_true, Bool.false_eq_true, if_false, List.cons_append]
      exact congrArg (a :: ·) ih
    · have e1 : (decide (p a < t)) = false := by simpa using (by omega : t ≤ p a)
      have e2 : (decide (p a = t)) = true := by simpa using heq
      have e3 : (decide (t < p a)) = false := by simpa using (by omega : p a ≤ t)
      have hz : l.filter (fun v => decide (p v < t)) = [] := hnil _ fun v hv => by have := h1 v hv; simp; omega
      simp only [grp, List.filter_cons, e1, e2, e3, if_true, Bool.false_eq_true, if_false, hz, List.nil_append, List.cons_append]
      rw [hz] at ih
      exact congrArg (a :: ·) ih
    · have e1 : (decide (p a < t)) = false := by simpa using (by omega : t ≤ p a)
      have e2 : (decide (p a = t)) = false := by simpa using (by omega : p a ≠ t)
      have e3 : (decide (t < p a)) = true := by simpa using hgt
      have hz : l.filter (fun v => decide (p v < t)) = [] := hnil _ fun v hv => by have := h1 v hv; simp; omega
      have hz2 : l.filter (fun v => decide (p v = t)) = [] := hnil _ fun v hv => by have := h1 v hv; simp; omega
      simp only [grp, List.filter_cons, e1, e2, e3, if_true, Bool.false_eq_true, if_false, hz, hz2, List.nil_append]
      rw [grp, hz, hz2] at ih
      exact congrArg (a :: ·) ih

theorem grp_get {p : Nat → Nat} {hv : List Nat} (h : hv.Pairwise (fun a b => p a ≤ p b)) {t j : Nat} (hj : j < (grp p hv t).length) :
    hv[gst p hv t + j]? = (grp p hv t)[j]? := by
  have h0 : hv[gst p hv t + j]? = _ := congrArg (fun l => l[gst p hv t + j]?) (sorted_split h t)
  rw [h0, List.append_assoc, List.getElem?_append_right (by unfold gst; omega), List.getElem?_append_left (by unfold gst; omega)]
  unfold gst
  congr 1
  omega

theorem mem_grp {p : Nat → Nat} {hv : List Nat} {t v : Nat} : v ∈ grp p hv t ↔ v ∈ hv ∧ p v = t := by
  unfold grp; simp

/-- the first position of a group -/
theorem gst_of_first {p : Nat → Nat} {hv : List Nat} (h : hv.Pairwise (fun a b => p a ≤ p b)) {pos v : Nat} (hv' : hv[pos]? = some v)
    (hf : pos = 0 ∨ (hv[pos - 1]?).map p ≠ some (p v)) : pos = gst p hv (p v) := by
  by_contra hne
  have hlen := congrArg List.length (sorted_split h (p v))
  simp only [List.length_append] at hlen
  have hsp := sorted_split h (p v)
  have hget : ∀ i w, hv[i]? = some w → p w = p v → gst p hv (p v) ≤ i ∧ i < gst p hv (p v) + (grp p hv (p v)).length := by
    intro i w hi hw
    have h0 : hv[i]? = _ := congrArg (fun l => l[i]?) hsp
    rw [hi, List.append_assoc] at h0
    by_cases h1 : i < gst p hv (p v)
    · rw [List.getElem?_append_left (by unfold gst at h1; omega)] at h0
      have := List.mem_of_getElem? h0.symm
      simp at this; omega
    · rw [List.getElem?_append_right (by unfold gst at h1; omega)] at h0
      refine ⟨by omega, ?_⟩
      by_contra h2
      rw [List.getElem?_append_right (by unfold gst at h1 h2; omega)] at h0
      have := List.mem_of_getElem? h0.symm
      simp at this; omega
  obtain ⟨a1, a2⟩ := hget pos v hv' rfl
  rcases hf with rfl | hf
  · omega
  · have hpos : gst p hv (p v) + (pos - 1 - gst p hv (p v)) = pos - 1 := by omega
    have hj : pos - 1 - gst p hv (p v) < (grp p hv (p v)).length := by omega
    have := grp_get h hj
    rw [hpos, List.getElem?_eq_getElem hj] at this
    rw [this] at hf
    have hm := (mem_grp.1 (List.getElem_mem hj)).2
    simp [hm] at hf

theorem gst_self {p : Nat → Nat} {hv : List Nat} (h : hv.Pairwise (fun a b => p a ≤ p b)) {t : Nat} (ht : grp p hv t ≠ []) :
    ∃ v, hv[gst p hv t]? = some v ∧ p v = t := by
  have hl : 0 < (grp p hv t).length := List.length_pos_iff.2 ht
  have := grp_get h hl
  rw [List.getElem?_eq_getElem hl] at this
  exact ⟨_, this, (mem_grp.1 (List.getElem_mem hl)).2⟩

/-- number of accepted nodes -/
def accN (c : Cfg α) (w : Int) : List Nat → Nat
  | [] => 0
  | v :: l => if w + c.nw v > c.maxw then 0 else accN c (w + c.nw v) l + 1

/-- weight of the first `j` nodes -/
def preW (c : Cfg α) (l : List Nat) (j : Nat) : Int := ((l.take j).map c.nw).sum

theorem preW_succ {l : List Nat} {j v : Nat} (h : l[j]? = some v) : preW c l (j + 1) = preW c l j + c.nw v := by
  unfold preW
  rw [List.take_add_one, h]
  simp

theorem accN_le (w : Int) (l : List Nat) : accN c w l ≤ l.length := by
  induction l generalizing w with
  | nil => simp [accN]
  | cons a l ih => simp only [accN, List.length_cons]; split; omega; have := ih (w + c.nw a); omega

theorem accN_fit (w : Int) (l : List Nat) {j v : Nat} (h : j < accN c w l) (hv : l[j]? = some v) : w + preW c l j + c.nw v ≤ c.maxw := by
  induction l generalizing w j with
  | nil => simp [accN] at h
  | cons a l ih =>
    simp only [accN] at h
    split at h
    · omega
    · cases j with
      | zero => simp at hv; subst hv; simp [preW]; omega
      | succ j =>
        have := ih (w + c.nw a) (j := j) (by omega) (by simpa using hv)
        simp only [preW, List.take_succ_cons, List.map_cons, List.sum_cons] at this ⊢
        omega

theorem accN_stop (w : Int) (l : List Nat) {v : Nat} (hv : l[accN c w l]? = some v) : w + preW c l (accN c w l) + c.nw v > c.maxw := by
  induction l generalizing w with
  | nil => simp at hv
  | cons a l ih =>
    simp only [accN] at hv ⊢
    split at hv
    · next h => simp at hv; subst hv; rw [if_pos h]; simp [preW]; omega
    · next h =>
      rw [if_neg h]
      have := ih (w + c.nw a) (by simpa using hv)
      simp only [preW, List.take_succ_cons, List.map_cons, List.sum_cons] at this ⊢
      omega

/-- a group that is too heavy is not accepted completely -/
theorem accN_lt (w : Int) (l : List Nat) (h : w + (l.map c.nw).sum > c.maxw) (hw : w ≤ c.maxw) : accN c w l < l.length := by
  induction l generalizing w with
  | nil => simp at h; omega
  | cons a l ih =>
    simp only [accN, List.length_cons]
    split
    · omega
    · simp only [List.map_cons, List.sum_cons] at h
      have := ih (w + c.nw a) (by omega) (by omega)
      omega

/-! ### Invariant -/

/-- number of accepted nodes of target `t` -/
def nAcc (c : Cfg α) (s : DC) (hv : List Nat) (t : Nat) : Nat := accN c (s.cw t) (grp s.prop hv t)
/-- weight of `t` with its first `j` candidates -/
def wAcc (c : Cfg α) (s : DC) (hv : List Nat) (t j : Nat) : Int := s.cw t + preW c (grp s.prop hv t) j
/-- how many of the first `j` candidates count as contracted -/
def kAcc (c : Cfg α) (s : DC) (hv : List Nat) (t j : Nat) : Nat := ((grp s.prop hv t).take j).countP (fun v => decide (s.opp v = c.nw v))

theorem kAcc_succ {s : DC} {hv : List Nat} {t j v : Nat} (h : (grp s.prop hv t)[j]? = some v) :
    kAcc c s hv t (j + 1) = kAcc c s hv t j + if s.opp v = c.nw v then 1 else 0 := by
  unfold kAcc
  rw [List.take_add_one, h, List.countP_append]
  simp [List.countP_cons]

def prg (n pos : Nat) : Pc4 → Nat
  | .start => 0
  | .rd _ => 0
  | .loop _ i _ _ => i - pos
  | .fixed _ i _ _ _ => i - pos
  | .put _ i _ _ => i - pos
  | .own _ i _ _ => i + 1 - pos
  | _ => n

def pastCw : Pc4 → Bool
  | .put2 _ _ _ => true
  | .count _ => true
  | .fin => true
  | _ => false

def pastOpp : Pc4 → Bool
  | .count _ => true
  | .fin => true
  | _ => false

/-- the program counters of the iteration that handles target `t` -/
inductive Pc4Ok (c : Cfg α) (s : DC) (hv : List Nat) (pos t : Nat) : Pc4 → Prop
  | start : Pc4Ok c s hv pos t .start
  | rd : Pc4Ok c s hv pos t (.rd t)
  | loop (j : Nat) (h : j ≤ nAcc c s hv t) : Pc4Ok c s hv pos t (.loop t (pos + j) (wAcc c s hv t j) (kAcc c s hv t j))
  | fixed (j : Nat) (h : j < nAcc c s hv t) (p : FPc) (hf : c.hasFixed = true) : Pc4Ok c s hv pos t (.fixed t (pos + j) (wAcc c s hv t j) (kAcc c s hv t j) p)
  | put (j : Nat) (h : j < nAcc c s hv t) : Pc4Ok c s hv pos t (.put t (pos + j) (wAcc c s hv t j) (kAcc c s hv t j))
  | own (j : Nat) (h : j < nAcc c s hv t) : Pc4Ok c s hv pos t (.own t (pos + j) (wAcc c s hv t (j + 1)) (kAcc c s hv t j))
  | put1 : Pc4Ok c s hv pos t (.put1 t (wAcc c s hv t (nAcc c s hv t)) (kAcc c s hv t (nAcc c s hv t)))
  | put2 : Pc4Ok c s hv pos t (.put2 t (wAcc c s hv t (nAcc c s hv t)) (kAcc c s hv t (nAcc c s hv t)))
  | count : Pc4Ok c s hv pos t (.count (kAcc c s hv t (nAcc c s hv t)))
  | fin : Pc4Ok c s hv pos t .fin

/-- position `pos` is the first one of its target -/
def First (s : DC) (hv : List Nat) (pos : Nat) : Prop := ∃ v, hv[pos]? = some v ∧ pos = gst s.prop hv (s.prop v)

/-- state during the loop of `approveNodes` -/
structure Inv4 (c : Cfg α) (hv : List Nat) (s : DC) (x : Par.PSt DC Pc4) : Prop where
  prop : x.s.prop = s.prop
  fix : x.s.fix = s.fix
  fvB : ∀ v, (x.s.fv.data v).block = (s.fv.data v).block
  fvE : c.hasFixed = false → x.s.fv = s.fv
  pcF : ∀ t, grp s.prop hv t ≠ [] → Pc4Ok c s hv (gst s.prop hv t) t (x.pc (gst s.prop hv t))
  pcN : ∀ pos < hv.length, ¬ First s hv pos → x.pc pos = .start ∨ x.pc pos = .fin
  cl : ∀ v, x.s.cl v = if v ∈ (grp s.prop hv (s.prop v)).take (prg (nAcc c s hv (s.prop v)) (gst s.prop hv (s.prop v)) (x.pc (gst s.prop hv (s.prop v)))) then s.prop v else s.cl v
  cw : ∀ t, x.s.cw t = if grp s.prop hv t ≠ [] ∧ pastCw (x.pc (gst s.prop hv t)) then wAcc c s hv t (nAcc c s hv t) else s.cw t
  opp : ∀ t, x.s.opp t = if grp s.prop hv t ≠ [] ∧ pastOpp (x.pc (gst s.prop hv t)) then wAcc c s hv t (nAcc c s hv t) else s.opp t
  cnt : (x.s.cnt : Int) = s.cnt + ((List.range hv.length).map (fun pos => match hv[pos]? with
    | some v => if pos = gst s.prop hv (s.prop v) ∧ x.pc pos = .fin then (kAcc c s hv (s.prop v) (nAcc c s hv (s.prop v)) : Int) else 0
    | none => 0)).sum

theorem Inv4.step {hv : List Nat} {s : DC} {x : Par.PSt DC Pc4} {pos : Nat} {q : Pc4} {s2 : DC} (hs : hv.Pairwise (fun a b => s.prop a ≤ s.prop b)) (hnd : hv.Nodup) (hu : pos < hv.length)
    (ha : c.hasFixed = true → ∀ u ∈ hv, (s.fv.data (s.prop u)).block = none → (s.fv.data u).block = none)
    (hlen : ∀ t, grp s.prop hv t ≠ [] → nAcc c s hv t < (grp s.prop hv t).length)
    (hopp : ∀ v ∈ hv, grp s.prop hv v ≠ [] → s.opp v ≠ c.nw v ∧ wAcc c s hv v (nAcc c s hv v) ≠ c.nw v)
    (hI : Inv4 c hv s x) (hx : next4 c hv pos (x.pc pos) x.s = some (q, s2)) : Inv4 c hv s ⟨s2, wr x.pc pos q⟩ := by
  obtain ⟨hp, hfx, hfb, hfe, hpf, hpn, hcl, hcw, hop, hcnt⟩ := hI
  obtain ⟨v0, hv0⟩ : ∃ v, hv[pos]? = some v := ⟨_, List.getElem?_eq_getElem hu⟩
  have hsum : ((List.range hv.length).map (fun i => match hv[i]? with
      | some v => if i = gst s.prop hv (s.prop v) ∧ wr x.pc pos q i = .fin then (kAcc c s hv (s.prop v) (nAcc c s hv (s.prop v)) : Int) else 0
      | none => 0)).sum = ((List.range hv.length).map (fun i => match hv[i]? with
      | some v => if i = gst s.prop hv (s.prop v) ∧ x.pc i = .fin then (kAcc c s hv (s.prop v) (nAcc c s hv (s.prop v)) : Int) else 0
      | none => 0)).sum - (if pos = gst s.prop hv (s.prop v0) ∧ x.pc pos = .fin then (kAcc c s hv (s.prop v0) (nAcc c s hv (s.prop v0)) : Int) else 0) +
        (if pos = gst s.prop hv (s.prop v0) ∧ q = .fin then (kAcc c s hv (s.prop v0) (nAcc c s hv (s.prop v0)) : Int) else 0) := by
    rw [sum_change List.nodup_range (List.mem_range.2 hu) (f := fun i => match hv[i]? with
      | some v => if i = gst s.prop hv (s.prop v) ∧ x.pc i = .fin then (kAcc c s hv (s.prop v) (nAcc c s hv (s.prop v)) : Int) else 0
      | none => 0)]
    · simp only [hv0, wr_same]
    · intro i _ hi; simp only [wr_other _ _ hi]
  have hgne : ∀ t, grp s.prop hv t ≠ [] → gst s.prop hv t = pos → t = s.prop v0 := by
    intro t ht e
    obtain ⟨w, hw, hw'⟩ := gst_self hs ht
    rw [e, hv0] at hw
    cases hw; exact hw'.symm
  have hgv : ∀ v, v ∈ hv → grp s.prop hv (s.prop v) ≠ [] := fun v hv' => List.ne_nil_of_mem (mem_grp.2 ⟨hv', rfl⟩)
  have hempty : ∀ t, grp s.prop hv t = [] ∨ grp s.prop hv t ≠ [] := fun t => Classical.em _
  by_cases hF : First s hv pos
  · -- the iteration handles the target `t`
    obtain ⟨v1, hv1, hpos⟩ := hF
    rw [hv0] at hv1; cases hv1
    generalize ht : s.prop v0 = t at hpos hsum hgne
    have hgt : grp s.prop hv t ≠ [] := ht ▸ hgv v0 (List.mem_of_getElem? hv0)
    have hoth : ∀ t', t' ≠ t → grp s.prop hv t' ≠ [] → gst s.prop hv t' ≠ pos := fun t' h1 h2 e => h1 (hgne t' h2 e)
    have hmem : ∀ j w, (grp s.prop hv t)[j]? = some w → w ∈ hv ∧ s.prop w = t := fun j w h => mem_grp.1 (List.mem_of_getElem? h)
    -- how a new state is checked
    have fin : ∀ s3 : DC, s3.prop = s.prop → s3.fix = s.fix → (∀ v, (s3.fv.data v).block = (s.fv.data v).block) → (c.hasFixed = false → s3.fv = s.fv) →
        Pc4Ok c s hv pos t q → (∀ v, v ∉ hv ∨ s.prop v ≠ t → s3.cl v = x.s.cl v) →
        (∀ v ∈ hv, s.prop v = t → s3.cl v = if v ∈ (grp s.prop hv t).take (prg (nAcc c s hv t) pos q) then t else s.cl v) →
        (∀ t', t' ≠ t → s3.cw t' = x.s.cw t') → (s3.cw t = if pastCw q then wAcc c s hv t (nAcc c s hv t) else s.cw t) →
        (∀ t', t' ≠ t → s3.opp t' = x.s.opp t') → (s3.opp t = if pastOpp q then wAcc c s hv t (nAcc c s hv t) else s.opp t) →
        ((s3.cnt : Int) = x.s.cnt - (if x.pc pos = .fin then (kAcc c s hv t (nAcc c s hv t) : Int) else 0) + (if q = .fin then (kAcc c s hv t (nAcc c s hv t) : Int) else 0)) →
        Inv4 c hv s ⟨s3, wr x.pc pos q⟩ := by
      intro s3 a1 a2 a3 a4 a5 a6 a7 a8 a9 a10 a11 a12
      refine ⟨a1, a2, a3, a4, fun t' h' => ?_, fun i hi hni => ?_, fun v => ?_, fun t' => ?_, fun t' => ?_, ?_⟩
      · by_cases h : t' = t
        · subst h; simp only; rw [← hpos, wr_same]; exact a5
        · simp only; rw [wr_other _ _ (hoth t' h h')]; exact hpf t' h'
      · have : i ≠ pos := by rintro rfl; exact hni ⟨v0, hv0, by rw [ht]; exact hpos⟩
        simp only; rw [wr_other _ _ this]; exact hpn i hi hni
      · simp only
        by_cases hv' : v ∈ hv
        · by_cases h : s.prop v = t
          · rw [a7 v hv' h, h, ← hpos]; simp only [wr_same]
          · rw [a6 v (.inr h), hcl v]; simp only [wr_other _ _ (hoth _ h (hgv v hv'))]
        · rw [a6 v (.inl hv'), hcl v]
          have hnm : ∀ n, v ∉ (grp s.prop hv (s.prop v)).take n := fun n hm => hv' (mem_grp.1 (List.mem_of_mem_take hm)).1
          rw [if_neg (hnm _), if_neg (hnm _)]
      · simp only
        by_cases h : t' = t
        · subst h; rw [a9, ← hpos]; simp only [wr_same]; simp [hgt]
        · rw [a8 t' h, hcw t']
          rcases hempty t' with h0 | h0
          · simp [h0]
          · simp only [wr_other _ _ (hoth t' h h0)]
      · simp only
        by_cases h : t' = t
        · subst h; rw [a11, ← hpos]; simp only [wr_same]; simp [hgt]
        · rw [a10 t' h, hop t']
          rcases hempty t' with h0 | h0
          · simp [h0]
          · simp only [wr_other _ _ (hoth t' h h0)]
      · simp only
        rw [hsum, a12, hcnt]
        have hpt : (pos = gst s.prop hv t) = True := by simpa using hpos
        simp only [hpt, true_and]
        omega
    have hclt : ∀ v ∈ hv, s.prop v = t → x.s.cl v = if v ∈ (grp s.prop hv t).take (prg (nAcc c s hv t) pos (x.pc pos)) then t else s.cl v := by
      intro v _ h; have := hcl v; rw [h, ← hpos] at this; exact this
    have hcwt := hcw t
    have hopt := hop t
    simp only [ne_eq, hgt, not_false_eq_true, true_and, ← hpos] at hcwt hopt
    have hget : ∀ j, j < nAcc c s hv t + 1 → ∃ w, hv[pos + j]? = some w ∧ (grp s.prop hv t)[j]? = some w := by
      intro j hj
      have hl : j < (grp s.prop hv t).length := by have := hlen t hgt; omega
      refine ⟨(grp s.prop hv t)[j], ?_, List.getElem?_eq_getElem hl⟩
      rw [hpos, grp_get hs hl, List.getElem?_eq_getElem hl]
    have hok := hpf t hgt
    rw [← hpos] at hok
    generalize hpc : x.pc pos = pc at hok hx hclt hcwt hopt fin
    have hnf : ∀ {P : Prop} [Decidable P] {a b : Int}, ¬ P → (if P then a else b) = b := fun h => if_neg h
    cases hok with
    | start =>
      simp only [next4, hv0, hp, ht] at hx
      have hfirst : pos = 0 ∨ (hv[pos - 1]?).map s.prop ≠ some t := by
        by_cases h0 : pos = 0
        · exact .inl h0
        · refine .inr fun h => ?_
          obtain ⟨w, hw, hwt⟩ := Option.map_eq_some_iff.1 h
          have h1 : pos - 1 < gst s.prop hv t := by omega
          have hsp : hv[pos - 1]? = _ := congrArg (fun l => l[pos - 1]?) (sorted_split hs t)
          rw [List.append_assoc, List.getElem?_append_left (by unfold gst at h1; omega), hw] at hsp
          have := List.mem_of_getElem? hsp.symm
          simp at this; omega
      rw [if_pos hfirst] at hx
      simp only [Option.some.injEq, Prod.mk.injEq] at hx
      obtain ⟨rfl, rfl⟩ := hx
      exact fin _ hp hfx hfb hfe .rd (fun _ _ => rfl) hclt (fun _ _ => rfl) hcwt (fun _ _ => rfl) hopt (by simp)
    | rd =>
      simp only [next4, Option.some.injEq, Prod.mk.injEq] at hx
      obtain ⟨rfl, rfl⟩ := hx
      have hc0 : x.s.cw t = s.cw t := by rw [hcwt]; simp [pastCw]
      have e : Pc4Ok c s hv pos t (.loop t pos (x.s.cw t) 0) := by
        have := Pc4Ok.loop (c := c) (s := s) (hv := hv) (pos := pos) (t := t) 0 (Nat.zero_le _)
        simpa [wAcc, preW, kAcc, hc0] using this
      exact fin _ hp hfx hfb hfe e (fun _ _ => rfl) (fun v hv' h => by rw [hclt v hv' h]; simp [prg]) (fun _ _ => rfl) hcwt (fun _ _ => rfl) hopt (by simp)
    | loop j hj =>
      obtain ⟨w, hw1, hw2⟩ := hget j (by omega)
      simp only [next4, hw1] at hx
      by_cases hgt' : wAcc c s hv t j + c.nw w > c.maxw
      · rw [if_pos hgt'] at hx
        simp only [Option.some.injEq, Prod.mk.injEq] at hx
        obtain ⟨rfl, rfl⟩ := hx
        have hjn : j = nAcc c s hv t := by
          by_contra hne
          have := accN_fit (c := c) (s.cw t) (grp s.prop hv t) (j := j) (by unfold nAcc at hj hne; omega) hw2
          unfold wAcc at hgt'; omega
        subst hjn
        exact fin _ hp hfx hfb hfe .put1 (fun _ _ => rfl) (fun v hv' h => by rw [hclt v hv' h]; simp only [prg, Nat.add_sub_cancel_left]; congr) (fun _ _ => rfl) hcwt (fun _ _ => rfl) hopt (by simp)
      · rw [if_neg hgt'] at hx
        have hjn : j < nAcc c s hv t := by
          by_contra hne
          have hjn : j = nAcc c s hv t := by omega
          rw [hjn] at hw2 hgt'
          have := accN_stop (s.cw t) (grp s.prop hv t) hw2
          unfold wAcc at hgt'; exact hgt' this
        by_cases hfx' : c.hasFixed = true
        · rw [if_pos hfx'] at hx
          simp only [Option.some.injEq, Prod.mk.injEq] at hx
          obtain ⟨rfl, rfl⟩ := hx
          exact fin _ hp hfx hfb hfe (.fixed j hjn _ hfx') (fun _ _ => rfl) hclt (fun _ _ => rfl) hcwt (fun _ _ => rfl) hopt (by simp)
        · rw [if_neg hfx'] at hx
          simp only [Option.some.injEq, Prod.mk.injEq] at hx
          obtain ⟨rfl, rfl⟩ := hx
          exact fin _ hp hfx hfb hfe (.put j hjn) (fun _ _ => rfl) hclt (fun _ _ => rfl) hcwt (fun _ _ => rfl) hopt (by simp)
    | fixed j hj p hfx' =>
      obtain ⟨w, hw1, hw2⟩ := hget j (by omega)
      simp only [next4, hw1] at hx
      cases hF2 : nextF c t w p x.s.fv with
      | none =>
        rw [hF2] at hx
        simp only [Option.some.injEq, Prod.mk.injEq] at hx
        obtain ⟨rfl, rfl⟩ := hx
        exact fin _ hp hfx hfb hfe (.put j hj) (fun _ _ => rfl) hclt (fun _ _ => rfl) hcwt (fun _ _ => rfl) hopt (by simp)
      | some r =>
        obtain ⟨p', f'⟩ := r
        rw [hF2] at hx
        simp only [Option.some.injEq, Prod.mk.injEq] at hx
        obtain ⟨rfl, rfl⟩ := hx
        have hb := nextF_block hF2 (by rw [hfb, hfb]; have := ha hfx' w (hmem j w hw2).1; rwa [(hmem j w hw2).2] at this)
        exact fin _ hp hfx (fun v => (hb v).trans (hfb v)) (fun h => by rw [hfx'] at h; cases h) (.fixed j hj _ hfx') (fun _ _ => rfl) hclt (fun _ _ => rfl) hcwt (fun _ _ => rfl) hopt (by simp)
    | put j hj =>
      obtain ⟨w, hw1, hw2⟩ := hget j (by omega)
      simp only [next4, hw1, Option.some.injEq, Prod.mk.injEq] at hx
      obtain ⟨rfl, rfl⟩ := hx
      have e : Pc4Ok c s hv pos t (.own t (pos + j) (wAcc c s hv t j + c.nw w) (kAcc c s hv t j)) := by
        have := Pc4Ok.own (c := c) (s := s) (hv := hv) (pos := pos) (t := t) j hj
        rwa [wAcc, preW_succ hw2, ← Int.add_assoc] at this
      refine fin _ hp hfx hfb hfe e (fun v hv' => ?_) (fun v hv' h => ?_) (fun _ _ => rfl) hcwt (fun _ _ => rfl) hopt (by simp)
      · refine wr_other _ _ ?_
        rintro rfl
        rcases hv' with h | h
        · exact h (hmem j v hw2).1
        · exact h (hmem j v hw2).2
      · have e1 : prg (nAcc c s hv t) pos (.own t (pos + j) (wAcc c s hv t j + c.nw w) (kAcc c s hv t j)) = j + 1 := by simp only [prg]; omega
        have e2 : prg (nAcc c s hv t) pos (.put t (pos + j) (wAcc c s hv t j) (kAcc c s hv t j)) = j := by simp only [prg]; omega
        have e3 := hclt v hv' h
        simp only [e2] at e3
        simp only [e1, List.take_add_one, hw2]
        by_cases hvw : v = w
        · subst hvw; rw [wr_same]; simp
        · rw [wr_other _ _ hvw, e3]
          simp only [Option.toList_some, List.mem_append, List.mem_singleton, hvw, or_false]
    | own j hj =>
      obtain ⟨w, hw1, hw2⟩ := hget j (by omega)
      simp only [next4, hw1, Option.some.injEq, Prod.mk.injEq] at hx
      obtain ⟨rfl, rfl⟩ := hx
      have hread : (x.s.opp w = c.nw w) ↔ (s.opp w = c.nw w) := by
        rw [hop w]
        split
        · next h => have := hopp w (hmem j w hw2).1 h.1; simp [this.1, this.2]
        · rfl
      have e : Pc4Ok c s hv pos t (.loop t (pos + j + 1) (wAcc c s hv t (j + 1)) (if x.s.opp w = c.nw w then kAcc c s hv t j + 1 else kAcc c s hv t j)) := by
        have := Pc4Ok.loop (c := c) (s := s) (hv := hv) (pos := pos) (t := t) (j + 1) hj
        rw [kAcc_succ hw2] at this
        simp only [hread]
        by_cases h : s.opp w = c.nw w
        · simpa [h, Nat.add_assoc] using this
        · simpa [h, Nat.add_assoc] using this
      exact fin _ hp hfx hfb hfe e (fun _ _ => rfl) hclt (fun _ _ => rfl) hcwt (fun _ _ => rfl) hopt (by simp)
    | put1 =>
      simp only [next4, Option.some.injEq, Prod.mk.injEq] at hx
      obtain ⟨rfl, rfl⟩ := hx
      exact fin _ hp hfx hfb hfe .put2 (fun _ _ => rfl) hclt (fun t' h => wr_other _ _ h) (by simp [wr_same, pastCw]) (fun _ _ => rfl) hopt (by simp)
    | put2 =>
      simp only [next4, Option.some.injEq, Prod.mk.injEq] at hx
      obtain ⟨rfl, rfl⟩ := hx
      exact fin _ hp hfx hfb hfe .count (fun _ _ => rfl) hclt (fun _ _ => rfl) hcwt (fun t' h => wr_other _ _ h) (by simp [wr_same, pastOpp]) (by simp)
    | count =>
      simp only [next4, Option.some.injEq, Prod.mk.injEq] at hx
      obtain ⟨rfl, rfl⟩ := hx
      exact fin _ hp hfx hfb hfe .fin (fun _ _ => rfl) hclt (fun _ _ => rfl) hcwt (fun _ _ => rfl) hopt (by simp)
    | fin => simp [next4] at hx
  · -- not the first position of its target
    have hnext : s2 = x.s ∧ q = .fin := by
      rcases hpn pos hu hF with h | h <;> rw [h] at hx
      · simp only [next4, hv0, hp] at hx
        have : ¬ (pos = 0 ∨ (hv[pos - 1]?).map s.prop ≠ some (s.prop v0)) := fun h' => hF ⟨v0, hv0, gst_of_first hs hv0 h'⟩
        rw [if_neg this] at hx
        simp only [Option.some.injEq, Prod.mk.injEq] at hx
        exact ⟨hx.2.symm, hx.1.symm⟩
      · simp [next4] at hx
    obtain ⟨rfl, rfl⟩ := hnext
    have hne : ∀ t, grp s.prop hv t ≠ [] → gst s.prop hv t ≠ pos := by
      intro t ht e
      have := hgne t ht e
      exact hF ⟨v0, hv0, by rw [← this, e]⟩
    refine ⟨hp, hfx, hfb, hfe, fun t ht => ?_, fun i hi hni => ?_, fun v => ?_, fun t => ?_, fun t => ?_, ?_⟩
    · simp only; rw [wr_other _ _ (hne t ht)]; exact hpf t ht
    · simp only
      by_cases h : i = pos
      · subst h; rw [wr_same]; exact .inr rfl
      · rw [wr_other _ _ h]; exact hpn i hi hni
    · simp only; rw [hcl v]
      by_cases hv' : v ∈ hv
      · simp only [wr_other _ _ (hne _ (hgv v hv'))]
      · have hnm : ∀ n, v ∉ (grp s.prop hv (s.prop v)).take n := fun n hm => hv' (mem_grp.1 (List.mem_of_mem_take hm)).1
        rw [if_neg (hnm _), if_neg (hnm _)]
    · simp only; rw [hcw t]
      rcases hempty t with h | h
      · simp [h]
      · simp only [wr_other _ _ (hne t h)]
    · simp only; rw [hop t]
      rcases hempty t with h | h
      · simp [h]
      · simp only [wr_other _ _ (hne t h)]
    · simp only
      have : ¬ pos = gst s.prop hv (s.prop v0) := fun e => hF ⟨v0, hv0, e⟩
      rw [hsum, hcnt]; simp only [this, false_and, if_false]; omega

end DetC
end Verif
