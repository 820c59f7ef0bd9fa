import Verif.Lemmas.Dyn27
/-!
# The uncontraction of a batch ends
-/
namespace Verif
namespace Dyn
open SMap (wr)

variable {s0 : DH} {par ver bi : Nat → Nat} {G : Gh} {V c : Nat} {b : List (Nat × Nat)} {s s' : USt} {U : UG}

/-- cost of the callbacks, for nets with `P e` slots -/
def callsCost (P : Nat → Nat) (cs : List Call) : Nat := (cs.map (fun c => P c.net + 4)).sum

/-- steps in front of the callbacks -/
def Tk.pre : Tk → Nat
  | .wait => 2
  | .cut => 1
  | _ => 0

/-- steps for the callbacks -/
def Tk.cost (P : Nat → Nat) : Tk → Nat
  | .nets cs => callsCost P cs + 1
  | .scan _ p cs => callsCost P cs + p + 3
  | .write _ _ cs => callsCost P cs + 2
  | .resize e p cs => callsCost P cs + (P e - p) + 2
  | _ => 0

def USt.pre (s : USt) (k : Nat) : Nat := ∑ j ∈ Finset.range k, (s.tk j).pre
def USt.cost (s : USt) (P : Nat → Nat) (k : Nat) : Nat := ∑ j ∈ Finset.range k, (s.tk j).cost P

theorem sum_wr_lt (f : Tk → Nat) {tk : Nat → Tk} {k j : Nat} {t : Tk} (hj : j < k) (h : f t < f (tk j)) :
    ∑ i ∈ Finset.range k, f (wr tk j t i) < ∑ i ∈ Finset.range k, f (tk i) := by
  refine Finset.sum_lt_sum ?_ ⟨j, Finset.mem_range.2 hj, by rw [wr_same]; exact h⟩
  intro i _
  rcases wr_cases tk j t i with ⟨rfl, e⟩ | ⟨_, e⟩
  · rw [e]; exact Nat.le_of_lt h
  · rw [e]

theorem sum_wr_eq (f : Tk → Nat) {tk : Nat → Tk} {k j : Nat} {t : Tk} (h : f t = f (tk j)) :
    ∑ i ∈ Finset.range k, f (wr tk j t i) = ∑ i ∈ Finset.range k, f (tk i) := by
  refine Finset.sum_congr rfl ?_
  intro i _
  rcases wr_cases tk j t i with ⟨rfl, e⟩ | ⟨_, e⟩
  · rw [e]; exact h
  · rw [e]

/-- the number of slots of the nets does not change -/
theorem UStep.slots (h : UStep b s s') (e : Nat) : (s'.h.pins e).length = (s.h.pins e).length := by
  cases h with
  | write j u v e' p cs hj ht =>
    show (wr s.h.pins e' ((s.h.pins e').set p v) e).length = _
    rcases wr_cases s.h.pins e' ((s.h.pins e').set p v) e with ⟨rfl, h⟩ | ⟨_, h⟩
    · rw [h, List.length_set]
    · rw [h]
  | _ => rfl

theorem UInv.size_le (hS : Stat s0 par ver bi G) (hI : UInv s0 par ver bi G V c b s U) {v e : Nat} (h : G.one v e = true ∨ G.two v e = true) :
    s.h.size e ≤ (s.h.pins e).length := (hI.core.pins e (hS.logU v e h).1).le

/-- every step gets closer to the end -/
theorem UInv.decr (hS : Stat s0 par ver bi G) (hI : UInv s0 par ver bi G V c b s U) (h : UStep b s s') {P : Nat → Nat} (hP : ∀ e, P e = (s.h.pins e).length) :
    s'.pre b.length < s.pre b.length ∨ (s'.pre b.length = s.pre b.length ∧ s'.cost P b.length < s.cost P b.length) := by
  have hlt : ∀ {j : Nat}, s.tk j ≠ .wait → j < b.length := by
    intro j hj
    obtain ⟨u, v, h⟩ := hI.entry hj
    exact (List.getElem?_eq_some_iff.1 h).1
  have hin : ∀ {j u v : Nat}, b[j]? = some (u, v) → j < b.length := fun h => (List.getElem?_eq_some_iff.1 h).1
  have key : ∀ {j : Nat} {t : Tk}, j < b.length → t.pre = (s.tk j).pre → t.cost P < (s.tk j).cost P →
      (∑ i ∈ Finset.range b.length, (wr s.tk j t i).pre < s.pre b.length ∨
        (∑ i ∈ Finset.range b.length, (wr s.tk j t i).pre = s.pre b.length ∧ ∑ i ∈ Finset.range b.length, (wr s.tk j t i).cost P < s.cost P b.length)) := by
    intro j t hj h1 h2
    exact Or.inr ⟨sum_wr_eq Tk.pre h1, sum_wr_lt (Tk.cost P) hj h2⟩
  cases h with
  | cut j u v a hj ht hc => exact Or.inl (sum_wr_lt Tk.pre (hin hj) (by rw [ht]; decide))
  | restore j u v a cs hj ht hc => exact Or.inl (sum_wr_lt Tk.pre (hin hj) (by rw [ht]; exact Nat.zero_lt_one))
  | two j e cs ht =>
    have hj := hlt (j := j) (by rw [ht]; exact fun h => Tk.noConfusion h)
    obtain ⟨u, v, hj'⟩ := hI.entry (j := j) (by rw [ht]; exact fun h => Tk.noConfusion h)
    have hk : CallsOK G s.h s.flag U v (.two e :: cs) none := hI.at hj' ht
    have := hI.size_le hS (Or.inr (hI.core.twoLe v e ((hk.two e).2 (Or.inl List.mem_cons_self))))
    have hPe := hP e
    refine key hj (by rw [ht]; rfl) ?_
    rw [ht]
    simp only [Tk.cost, callsCost, List.map_cons, List.sum_cons, Call.net]
    omega
  | scanHit j u v e p cs hj ht hp =>
    refine key (hin hj) (by rw [ht]; rfl) ?_
    rw [ht]; simp only [Tk.cost]; omega
  | scanMiss j u v e p cs hj ht hp =>
    refine key (hin hj) (by rw [ht]; rfl) ?_
    rw [ht]; simp only [Tk.cost]; omega
  | scanLost j e cs ht =>
    refine key (hlt (by rw [ht]; exact fun h => Tk.noConfusion h)) (by rw [ht]; rfl) ?_
    rw [ht]; simp only [Tk.cost]; omega
  | write j u v e p cs hj ht =>
    refine key (hin hj) (by rw [ht]; rfl) ?_
    rw [ht]; simp only [Tk.cost]; omega
  | oneOther j e cs ht hf =>
    refine key (hlt (by rw [ht]; exact fun h => Tk.noConfusion h)) (by rw [ht]; rfl) ?_
    rw [ht]; simp only [Tk.cost, callsCost, List.map_cons, List.sum_cons]; omega
  | one j e cs ht hf =>
    refine key (hlt (by rw [ht]; exact fun h => Tk.noConfusion h)) (by rw [ht]; rfl) ?_
    rw [ht]; simp only [Tk.cost, callsCost, List.map_cons, List.sum_cons, Call.net]; omega
  | grow j e p cs ht hp hb =>
    refine key (hlt (by rw [ht]; exact fun h => Tk.noConfusion h)) (by rw [ht]; rfl) ?_
    have hPe := hP e
    rw [ht]; simp only [Tk.cost]; omega
  | grown j e p cs ht hp =>
    refine key (hlt (by rw [ht]; exact fun h => Tk.noConfusion h)) (by rw [ht]; rfl) ?_
    rw [ht]; simp only [Tk.cost]; omega
  | enable j u v hj ht =>
    refine key (hin hj) (by rw [ht]; rfl) ?_
    rw [ht]; simp only [Tk.cost]; omega

/-- no infinite execution -/
theorem UInv.no_infinite (hc : Clean s0) (hS : Stat s0 par ver bi G) (hb : BatchOK par bi c b) (hver : ∀ v, par v ≠ v → bi v = c → ver v = V)
    (hI : UInv s0 par ver bi G V c b s U) (f : Nat → USt) (h0 : f 0 = s) (hf : ∀ i, UStep b (f i) (f (i + 1))) : False := by
  have hinv : ∀ i, ∃ U, UInv s0 par ver bi G V c b (f i) U := by
    intro i
    induction i with
    | zero => rw [h0]; exact ⟨U, hI⟩
    | succ i ih => obtain ⟨U, h⟩ := ih; exact h.step hc hS hb hver (hf i)
  have hslots : ∀ i e, ((f i).h.pins e).length = (s.h.pins e).length := by
    intro i
    induction i with
    | zero => intro e; rw [h0]
    | succ i ih => intro e; rw [(hf i).slots e, ih e]
  have key : ∀ (a : Nat) (d : Nat) (i : Nat), (f i).pre b.length = a → (f i).cost (fun e => (s.h.pins e).length) b.length = d → False := by
    intro a
    induction a using Nat.strong_induction_on with
    | _ a iha =>
      intro d
      induction d using Nat.strong_induction_on with
      | _ d ihd =>
        intro i h1 h2
        obtain ⟨U, hU⟩ := hinv i
        rcases hU.decr hS (hf i) (P := fun e => (s.h.pins e).length) (fun e => (hslots i e).symm) with h | ⟨h3, h4⟩
        · exact iha _ (by rw [← h1]; exact h) _ (i + 1) rfl rfl
        · exact ihd _ (by rw [← h2]; exact h4) (i + 1) (by rw [h3, h1]) rfl
  exact key _ _ 0 rfl rfl

/-- the execution can always be completed -/
theorem UInv.complete (hc : Clean s0) (hS : Stat s0 par ver bi G) (hb : BatchOK par bi c b) (hver : ∀ v, par v ≠ v → bi v = c → ver v = V)
    (hI : UInv s0 par ver bi G V c b s U) : ∃ s', USteps b s s' ∧ ∀ j < b.length, s'.tk j = .done := by
  have trans : ∀ {x y z : USt}, UStep b x y → USteps b y z → USteps b x z := by
    intro x y z h1 h2
    induction h2 with
    | refl => exact .tail _ _ _ (.refl _) h1
    | tail s1 s2 _ h' ih => exact .tail _ _ _ ih h'
  have key : ∀ (a : Nat) (d : Nat) (s1 : USt) (U1 : UG), UInv s0 par ver bi G V c b s1 U1 → (∀ e, (s1.h.pins e).length = (s.h.pins e).length) →
      s1.pre b.length = a → s1.cost (fun e => (s.h.pins e).length) b.length = d → ∃ s', USteps b s1 s' ∧ ∀ j < b.length, s'.tk j = .done := by
    intro a
    induction a using Nat.strong_induction_on with
    | _ a iha =>
      intro d
      induction d using Nat.strong_induction_on with
      | _ d ihd =>
        intro s1 U1 hU hl h1 h2
        by_cases hd : ∀ j < b.length, s1.tk j = .done
        · exact ⟨s1, .refl _, hd⟩
        · simp only [not_forall] at hd
          obtain ⟨j, hj, hne⟩ := hd
          obtain ⟨s2, hs2, _⟩ := hU.progress hc hS hb hver hj hne
          obtain ⟨U2, hU2⟩ := hU.step hc hS hb hver hs2
          have hl2 : ∀ e, (s2.h.pins e).length = (s.h.pins e).length := fun e => by rw [hs2.slots e, hl e]
          rcases hU.decr hS hs2 (P := fun e => (s.h.pins e).length) (fun e => (hl e).symm) with h | ⟨h3, h4⟩
          · obtain ⟨s', g1, g2⟩ := iha _ (by rw [← h1]; exact h) _ s2 U2 hU2 hl2 rfl rfl
            exact ⟨s', trans hs2 g1, g2⟩
          · obtain ⟨s', g1, g2⟩ := ihd _ (by rw [← h2]; exact h4) s2 U2 hU2 hl2 (by rw [h3, h1]) rfl
            exact ⟨s', trans hs2 g1, g2⟩
  exact key _ _ s U hI (fun _ => rfl) rfl rfl

/-- the next step of the uncoarsening is possible -/
theorem UncInv.next (hc : Clean s0) (hS : Stat s0 par ver bi G) {L : List (List (List (Nat × Nat)))} (hT : SchedOK par ver bi L)
    {L1 : List (List (List (Nat × Nat)))} {B : List (List (Nat × Nat))} {h : DH} {U : UG} (hI : UncInv s0 par ver bi G L L1 B h U) :
    (L1 = [] ∧ B = []) ∨ ∃ y, UncStep (L1 ++ [B], h) y := by
  rcases List.eq_nil_or_concat B with rfl | ⟨B', b, rfl⟩
  · rcases List.eq_nil_or_concat L1 with rfl | ⟨L', B', rfl⟩
    · exact Or.inl ⟨rfl, rfl⟩
    · right
      rw [List.concat_eq_append] at hI ⊢
      obtain ⟨R, rest, h1, h', h2, _⟩ := hI.nets hS hT (ord := (List.range h.n).filter h.en) (List.Perm.refl _)
      exact ⟨_, .nets L' B' h h' R rest _ h1 (List.Perm.refl _) h2⟩
  · right
    rw [List.concat_eq_append] at hI ⊢
    obtain ⟨hb, hver, hB⟩ := hI.batchInfo hT
    obtain ⟨s', h1, h2⟩ := (UInv.start hb hB).complete hc hS hb hver
    exact ⟨_, .batch L1 B' b h s'.h ⟨s'.tk, s'.flag, h1, h2⟩⟩

end Dyn
end Verif
