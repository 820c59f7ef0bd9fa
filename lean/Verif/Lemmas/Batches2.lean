import Verif.Lemmas.Batches1
import Mathlib.Algebra.BigOperators.Group.Finset.Basic
import Mathlib.Algebra.Order.BigOperators.Group.Finset
import Mathlib.Tactic.Ring
/-! The invariant of the parallel batch assignment. -/
namespace Verif
namespace Uncontract
open Schedule
open SMap (wr)

/-- the groups in the order in which they received their batch, with the batch -/
abbrev Hist := List (Nat × List Nat)

/-- nodes of batch `b` -/
def content (H : Hist) (b : Nat) : List Nat := (H.filter (fun c => decide (c.1 = b))).flatMap (·.2)

def hnodes (H : Hist) : List Nat := H.flatMap (·.2)

def BatchLe (H : Hist) (y b : Nat) : Prop := ∃ c ∈ H, y ∈ c.2 ∧ c.1 ≤ b
def BatchLt (H : Hist) (y b : Nat) : Prop := ∃ c ∈ H, y ∈ c.2 ∧ c.1 < b

theorem BatchLe.mono {H : Hist} {y b b' : Nat} (h : BatchLe H y b) (X : Hist) (hb : b ≤ b') : BatchLe (H ++ X) y b' := by
  obtain ⟨c, h1, h2, h3⟩ := h
  exact ⟨c, by simp [h1], h2, by omega⟩

theorem BatchLt.mono {H : Hist} {y b b' : Nat} (h : BatchLt H y b) (X : Hist) (hb : b ≤ b') : BatchLt (H ++ X) y b' := by
  obtain ⟨c, h1, h2, h3⟩ := h
  exact ⟨c, by simp [h1], h2, by omega⟩

theorem content_append (H X : Hist) (b : Nat) : content (H ++ X) b = content H b ++ content X b := by
  unfold content; rw [List.filter_append, List.flatMap_append]

theorem content_single (b idx : Nat) (g : List Nat) : content [(idx, g)] b = if idx = b then g else [] := by
  unfold content
  by_cases h : idx = b
  · simp [h]
  · simp [h]

theorem mem_content {H : Hist} {b x : Nat} : x ∈ content H b ↔ ∃ c ∈ H, c.1 = b ∧ x ∈ c.2 := by
  unfold content
  simp only [List.mem_flatMap, List.mem_filter, decide_eq_true_eq]
  constructor
  · rintro ⟨c, ⟨h1, h2⟩, h3⟩; exact ⟨c, h1, h2, h3⟩
  · rintro ⟨c, h1, h2, h3⟩; exact ⟨c, ⟨h1, h2⟩, h3⟩

/-- consecutive members of a group are linked by simultaneous contractions -/
def Linked (t : CTree) (g : List Nat) : Prop :=
  ∀ a b, g = a ++ b → a ≠ [] → b ≠ [] → ∃ x ∈ a, ∃ y ∈ b, t.forest.Overlap x y

/-- a group that may be put into batch `b` or later -/
def Grp (t : CTree) (ch : Nat → List Nat) (k : Nat) (H : Hist) (b u : Nat) (g : List Nat) : Prop :=
  ∃ pre rest, ch u = pre ++ g ++ rest ∧ g ≠ [] ∧ (∀ x ∈ g, t.ver x = k) ∧
    (∀ y ∈ pre, t.ver y = k → BatchLe H y b) ∧
    (∀ x ∈ g, ∀ y ∈ rest, t.ver y = k → ¬ t.forest.Overlap x y) ∧ Linked t g ∧ (t.ver u = k → BatchLt H u b)

theorem Grp.mono {t : CTree} {ch : Nat → List Nat} {k : Nat} {H : Hist} {b b' u : Nat} {g : List Nat}
    (h : Grp t ch k H b u g) (X : Hist) (hb : b ≤ b') : Grp t ch k (H ++ X) b' u g := by
  obtain ⟨pre, rest, h1, h2, h3, h4, h5, h6, h7⟩ := h
  exact ⟨pre, rest, h1, h2, h3, fun y hy hk => (h4 y hy hk).mono X hb, h5, h6, fun hk => (h7 hk).mono X hb⟩

/-- an iterator of the current (`nx = false`) or next level -/
def Iter (t : CTree) (ch : Nat → List Nat) (k : Nat) (H : Hist) (b : Nat) (fl : List Nat) (nx : Bool) (l : List Nat) : Prop :=
  ∃ u pre, ch u = pre ++ l ∧ (∃ v r, l = v :: r ∧ t.ver v = k) ∧
    (∀ y ∈ pre, t.ver y = k → BatchLe H y b ∨ y ∈ fl) ∧
    (t.ver u = k → if nx then BatchLe H u b ∨ u ∈ fl else BatchLt H u b)

theorem Iter.mono {t : CTree} {ch : Nat → List Nat} {k : Nat} {H : Hist} {b b' : Nat} {fl fl' l : List Nat} {nx : Bool}
    (h : Iter t ch k H b fl nx l) (X : Hist) (hb : b ≤ b') (hf : ∀ y ∈ fl, BatchLe (H ++ X) y b' ∨ y ∈ fl') :
    Iter t ch k (H ++ X) b' fl' nx l := by
  obtain ⟨u, pre, h1, h2, h3, h4⟩ := h
  refine ⟨u, pre, h1, h2, ?_, ?_⟩
  · intro y hy hk
    rcases h3 y hy hk with h | h
    · exact Or.inl (h.mono X hb)
    · exact hf y h
  · intro hk
    have := h4 hk
    cases nx with
    | false =>
      simp only [Bool.false_eq_true, if_false] at this ⊢
      exact this.mono X hb
    | true =>
      simp only [if_true] at this ⊢
      rcases this with h | h
      · exact Or.inl (h.mono X hb)
      · exact hf u h

/-- the group a thread has taken but not yet placed -/
def infl : Pc → List Nat
  | .check _ g => g
  | .loadHw _ g => g
  | .find _ g _ _ => g
  | _ => []

/-- the group a thread has placed but not yet recorded -/
def pend : Pc → Option (Nat × List Nat × Nat × Nat)
  | .addSize u g idx pos _ => some (u, g, idx, pos)
  | .raise u g idx pos => some (u, g, idx, pos)
  | .cas u g idx pos _ => some (u, g, idx, pos)
  | .assign u g idx pos => some (u, g, idx, pos)
  | _ => none

def eff (loc : Nat) (pc : Pc) : Nat := match pend pc with
  | some (_, _, idx, _) => idx
  | none => loc

def pendSize (b : Nat) : Pc → Nat
  | .addSize _ g idx _ _ => if idx = b then g.length else 0
  | _ => 0

/-- number of placed nodes a thread knows of -/
def placedLen (th : Thr) : Nat := th.asg.length + match pend th.pc with
  | some (_, g, _, _) => g.length
  | none => 0

def Placed (H : Hist) (g : List Nat) (idx pos : Nat) : Prop :=
  ∃ H1 H2, H = H1 ++ (idx, g) :: H2 ∧ pos = (content H1 idx).length

theorem Placed.mono {H : Hist} {g : List Nat} {idx pos : Nat} (h : Placed H g idx pos) (X : Hist) : Placed (H ++ X) g idx pos := by
  obtain ⟨H1, H2, h1, h2⟩ := h
  exact ⟨H1, H2 ++ X, by rw [h1]; simp, h2⟩

/-- children waiting in the queues of a thread -/
def fr (t : CTree) (k : Nat) (th : Thr) : List Nat := (th.pq ++ th.nxt).flatMap (expand t k)

def PcInv (t : CTree) (ch : Nat → List Nat) (k : Nat) (H : Hist) (m hwm loc : Nat) (th : Thr) : Prop :=
  match th.pc with
  | .idle => th.pq = [] → th.nxt = []
  | .check u g => Grp t ch k H loc u g
  | .loadHw u g => Grp t ch k H loc u g ∧ loc ≤ hwm
  | .find u g idx _ => Grp t ch k H loc u g ∧ loc ≤ idx ∧ idx ≤ m
  | .addSize u g idx pos _ => Placed H g idx pos ∧ loc ≤ idx ∧ idx < m ∧ (∀ x ∈ g, t.par x = u)
  | .raise u g idx pos => Placed H g idx pos ∧ loc ≤ idx ∧ idx < m ∧ (∀ x ∈ g, t.par x = u)
  | .cas u g idx pos _ => Placed H g idx pos ∧ loc ≤ idx ∧ idx < m ∧ (∀ x ∈ g, t.par x = u)
  | .assign u g idx pos => Placed H g idx pos ∧ loc ≤ idx ∧ idx < m ∧ (∀ x ∈ g, t.par x = u)
  | .swap => loc < m
  | .scan _ mn => mn ≤ m ∧ th.nxt = []
  | .raise2 mn => mn ≤ m ∧ th.nxt = []
  | .cas2 mn _ => mn ≤ m ∧ th.nxt = []

structure ThrInv (t : CTree) (ch : Nat → List Nat) (k : Nat) (H : Hist) (m hwm loc : Nat) (th : Thr) : Prop where
  pc : PcInv t ch k H m hwm loc th
  locm : loc ≤ m
  pq : ∀ l ∈ th.pq, Iter t ch k H (eff loc th.pc) (infl th.pc) false l
  nxt : ∀ l ∈ th.nxt, Iter t ch k H (eff loc th.pc) (infl th.pc) true l
  ent : ∀ e ∈ th.asg, (content H e.idx)[e.pos]? = some e.v ∧ e.u = t.par e.v

theorem ThrInv.mono {t : CTree} {ch : Nat → List Nat} {k : Nat} {H : Hist} {m m' hwm hwm' loc : Nat} {th : Thr}
    (h : ThrInv t ch k H m hwm loc th) (X : Hist) (hm : m ≤ m') (hh : hwm ≤ hwm') :
    ThrInv t ch k (H ++ X) m' hwm' loc th := by
  obtain ⟨h1, h2, h3, h4, h5⟩ := h
  refine ⟨?_, by omega, fun l hl => (h3 l hl).mono X (Nat.le_refl _) (fun y hy => Or.inr hy),
    fun l hl => (h4 l hl).mono X (Nat.le_refl _) (fun y hy => Or.inr hy), ?_⟩
  · unfold PcInv at h1 ⊢
    split at h1
    · exact h1
    · exact h1.mono X (Nat.le_refl _)
    · exact ⟨h1.1.mono X (Nat.le_refl _), by omega⟩
    · exact ⟨h1.1.mono X (Nat.le_refl _), h1.2.1, by omega⟩
    · exact ⟨h1.1.mono X, h1.2.1, by omega, h1.2.2.2⟩
    · exact ⟨h1.1.mono X, h1.2.1, by omega, h1.2.2.2⟩
    · exact ⟨h1.1.mono X, h1.2.1, by omega, h1.2.2.2⟩
    · exact ⟨h1.1.mono X, h1.2.1, by omega, h1.2.2.2⟩
    · omega
    · exact ⟨by omega, h1.2⟩
    · exact ⟨by omega, h1.2⟩
    · exact ⟨by omega, h1.2⟩
  · intro e he
    refine ⟨?_, (h5 e he).2⟩
    rw [content_append]
    have := (h5 e he).1
    rw [List.getElem?_append_left]
    · exact this
    · exact (List.getElem?_eq_some_iff.1 this).1

/-- position `p` of batch `b` is recorded, or about to be recorded, by the thread -/
def Covers (th : Thr) (b p : Nat) : Prop :=
  (∃ e ∈ th.asg, e.idx = b ∧ e.pos = p) ∨ ∃ u g pos, pend th.pc = some (u, g, b, pos) ∧ pos ≤ p ∧ p < pos + g.length

def Edge (t : CTree) (k v : Nat) : Prop := v < t.n ∧ t.par v ≠ v ∧ t.ver v = k

instance (t : CTree) (k v : Nat) : Decidable (Edge t k v) := by unfold Edge; infer_instance

open scoped BigOperators

structure Inv (t : CTree) (ch : Nat → List Nat) (roots : List Nat) (k mx T : Nat) (s : St) (H : Hist) (m : Nat) : Prop where
  lin : ∀ v, (hnodes H).count v + ∑ i ∈ Finset.range T, ((infl (s.thr i).pc).count v + (fr t k (s.thr i)).count v) =
    if Edge t k v then roots.count (t.par v) + ((hnodes H).count (t.par v) +
      ∑ i ∈ Finset.range T, (infl (s.thr i).pc).count (t.par v)) else 0
  tile : ∀ b, (content H b).length ≤ s.sh.cnt b ∧ (s.sh.cnt b = (content H b).length ∨ mx ≤ (content H b).length)
  mm : ∀ b, content H b ≠ [] ↔ b < m
  hw : s.sh.hwm ≤ m
  thr : ∀ i < T, ThrInv t ch k H m s.sh.hwm (s.sh.loc i) (s.thr i)
  cover : ∀ b p, p < (content H b).length → ∃ i < T, Covers (s.thr i) b p
  sizes : ∀ b, s.sh.size b + ∑ i ∈ Finset.range T, pendSize b (s.thr i).pc = (content H b).length
  hist : ∀ c ∈ H, ∃ u, Grp t ch k H c.1 u c.2
  placed : ∑ i ∈ Finset.range T, placedLen (s.thr i) = (hnodes H).length
  cap : ∀ H1 c H2, H = H1 ++ c :: H2 → (content H1 c.1).length < mx

theorem sum_upd {α : Type} (T i : Nat) (hi : i < T) (thr : Nat → α) (a : α) (f : α → Nat) :
    ∑ j ∈ Finset.range T, f (if j = i then a else thr j) + f (thr i) = ∑ j ∈ Finset.range T, f (thr j) + f a := by
  have hm : i ∈ Finset.range T := Finset.mem_range.2 hi
  rw [← Finset.add_sum_erase _ _ hm, ← Finset.add_sum_erase (Finset.range T) (fun j => f (thr j)) hm]
  have : ∑ j ∈ (Finset.range T).erase i, f (if j = i then a else thr j) = ∑ j ∈ (Finset.range T).erase i, f (thr j) := by
    apply Finset.sum_congr rfl
    intro j hj
    rw [if_neg (Finset.ne_of_mem_erase hj)]
  rw [this, if_pos rfl]
  ring

/-- steps that place no group -/
theorem Inv.same {t : CTree} {ch : Nat → List Nat} {roots : List Nat} {k mx T : Nat} {s : St} {H : Hist} {m : Nat}
    (I : Inv t ch roots k mx T s H m) {i : Nat} (hi : i < T) {sh' : Sh} {th' : Thr}
    (h1 : s.sh.hwm ≤ sh'.hwm) (h2 : sh'.hwm ≤ m)
    (h3 : ∀ b, (content H b).length ≤ sh'.cnt b ∧ (sh'.cnt b = (content H b).length ∨ mx ≤ (content H b).length))
    (h4 : ∀ j, j ≠ i → sh'.loc j = s.sh.loc j)
    (h5 : ∀ v, (infl th'.pc).count v + (fr t k th').count v +
        (if Edge t k v then (infl (s.thr i).pc).count (t.par v) else 0) =
      (infl (s.thr i).pc).count v + (fr t k (s.thr i)).count v + (if Edge t k v then (infl th'.pc).count (t.par v) else 0))
    (h6 : ∀ b, sh'.size b + pendSize b th'.pc = s.sh.size b + pendSize b (s.thr i).pc)
    (h7 : ∀ b p, Covers (s.thr i) b p → Covers th' b p)
    (h8 : ThrInv t ch k H m sh'.hwm (sh'.loc i) th') (h9 : placedLen th' = placedLen (s.thr i)) :
    Inv t ch roots k mx T { sh := sh', thr := fun j => if j = i then th' else s.thr j } H m := by
  refine ⟨?_, h3, I.mm, h2, ?_, ?_, ?_, I.hist, ?_, I.cap⟩
  · intro v
    have e1 := sum_upd T i hi s.thr th' (fun th => (infl th.pc).count v + (fr t k th).count v)
    have e2 := sum_upd T i hi s.thr th' (fun th => (infl th.pc).count (t.par v))
    have e3 := I.lin v
    have e4 := h5 v
    show (hnodes H).count v + ∑ j ∈ Finset.range T, ((infl (if j = i then th' else s.thr j).pc).count v +
      (fr t k (if j = i then th' else s.thr j)).count v) = if Edge t k v then roots.count (t.par v) +
        ((hnodes H).count (t.par v) + ∑ j ∈ Finset.range T, (infl (if j = i then th' else s.thr j).pc).count (t.par v)) else 0
    by_cases he : Edge t k v
    · rw [if_pos he] at e3 e4 ⊢
      rw [if_pos he] at e4
      omega
    · rw [if_neg he] at e3 e4 ⊢
      rw [if_neg he] at e4
      omega
  · intro j hj
    show ThrInv t ch k H m sh'.hwm (sh'.loc j) (if j = i then th' else s.thr j)
    by_cases h : j = i
    · rw [if_pos h, h]; exact h8
    · rw [if_neg h, h4 j h]
      have := (I.thr j hj).mono [] (Nat.le_refl m) h1
      rwa [List.append_nil] at this
  · intro b p hp
    obtain ⟨j, hj, hc⟩ := I.cover b p hp
    refine ⟨j, hj, ?_⟩
    show Covers (if j = i then th' else s.thr j) b p
    by_cases h : j = i
    · rw [if_pos h]; subst h; exact h7 b p hc
    · rw [if_neg h]; exact hc
  · intro b
    have e1 := sum_upd T i hi s.thr th' (fun th => pendSize b th.pc)
    have e2 := I.sizes b
    have e3 := h6 b
    show sh'.size b + ∑ j ∈ Finset.range T, pendSize b (if j = i then th' else s.thr j).pc = _
    omega
  · have e1 := sum_upd T i hi s.thr th' placedLen
    have e2 := I.placed
    show ∑ j ∈ Finset.range T, placedLen (if j = i then th' else s.thr j) = _
    omega

end Uncontract
end Verif
