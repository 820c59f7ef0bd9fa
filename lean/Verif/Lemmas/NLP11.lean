import Verif.Lemmas.NLP10
import Verif.Props.C27
/-!
# The uncontraction of a batch, with the partition, can always be completed
-/
namespace Verif
namespace Dyn
open SMap (wr)

/-- only unconditional additions -/
def AddOnly (l : List CacheOp) : Prop := ∀ op ∈ l, ∃ i a, op = CacheOp.add i a

theorem AddOnly.nil : AddOnly [] := fun _ h => by cases h
theorem AddOnly.cons {i : Nat} {a : Int} {l : List CacheOp} (h : AddOnly l) : AddOnly (.add i a :: l) := fun op hop => by
  rcases List.mem_cons.1 hop with rfl | hop
  · exact ⟨_, _, rfl⟩
  · exact h op hop
theorem AddOnly.append {l l' : List CacheOp} (h : AddOnly l) (h' : AddOnly l') : AddOnly (l ++ l') := fun op hop => by
  rcases List.mem_append.1 hop with hop | hop
  · exact h op hop
  · exact h' op hop
theorem AddOnly.ite {p : Prop} [Decidable p] {l l' : List CacheOp} (h : AddOnly l) (h' : AddOnly l') : AddOnly (if p then l else l') := by
  split
  · exact h
  · exact h'
theorem AddOnly.map (f : Nat → Nat) (g : Nat → Int) (l : List Nat) : AddOnly (l.map (fun x => .add (f x) (g x))) := fun op hop => by
  obtain ⟨x, _, rfl⟩ := List.mem_map.1 hop
  exact ⟨_, _, rfl⟩
theorem AddOnly.flatMap {f : Nat → List CacheOp} (l : List Nat) (h : ∀ x, AddOnly (f x)) : AddOnly (l.flatMap f) := fun op hop => by
  obtain ⟨x, _, hx⟩ := List.mem_flatMap.1 hop
  exact h x op hx
theorem AddOnly.opt {q : Option Nat} {f : Nat → List CacheOp} (h : ∀ x, AddOnly (f x)) : AddOnly (match q with | some x => f x | none => []) := by
  cases q with
  | none => exact AddOnly.nil
  | some x => exact h x

open AddOnly in
theorem restoreOps_add (o : Metrics.Obj) (k : Nat) (part : Assign) (pins cs : List Nat) (conn : Nat) (pc : Nat → Nat) (blk v after : Nat) (w : Int) :
    AddOnly (restoreOps o k part pins cs conn pc blk v after w) := by
  cases o with
  | km1 => exact append (append (ite (opt (fun _ => cons nil)) nil) (cons nil)) (AddOnly.map (fun b => benIdx k v b) _ _)
  | cut =>
    exact ite (append (ite (opt (fun b => AddOnly.map (fun x => benIdx k x b) _ _)) nil) (AddOnly.flatMap _ (fun b => ite (cons nil) nil)))
      (ite (cons (ite (AddOnly.map (fun x => penIdx k x) _ _) nil)) nil)
  | soed =>
    exact append (append (append (append (opt (fun x => cons (ite (cons nil) nil))) (ite (opt (fun b => AddOnly.map (fun x => benIdx k x b) _ _)) nil)) (cons nil))
      (AddOnly.flatMap _ (fun b => cons (ite (cons nil) nil)))) (ite (cons (ite (opt (fun x => cons nil)) nil)) nil)

open AddOnly in
theorem replaceOps_add (o : Metrics.Obj) (k size : Nat) (cs : List Nat) (conn : Nat) (pc : Nat → Nat) (blk u v : Nat) (w : Int) :
    AddOnly (replaceOps o k size cs conn pc blk u v w) := by
  cases o with
  | km1 => exact append (append (ite (cons (cons nil)) nil) (cons (cons nil))) (AddOnly.flatMap _ (fun b => cons (cons nil)))
  | cut => exact ite (append (ite (cons (cons nil)) nil) (ite (AddOnly.flatMap _ (fun b => ite (cons (cons nil)) nil)) nil)) nil
  | soed => exact ite (append (append (ite (cons (cons nil)) nil) (ite (cons (cons nil)) nil)) (AddOnly.flatMap _ (fun b => append (cons (cons nil)) (ite (cons (cons nil)) nil)))) nil

section
variable {σ : Type} {C : ConInfo σ} {m k mx : Nat} {o : Metrics.Obj} {ini : Bool}
variable {s0 : DH} {par ver bi : Nat → Nat} {G : Gh} {V c : Nat} {b : List (Nat × Nat)} {U : UG} {L : C.Lawful m k mx}
  {part : Assign} {cache0 : Nat → Int} {s s' t : PUSt σ}

def TodoAdd (s : PUSt σ) : Prop := ∀ j, AddOnly (s.todo j)

theorem TodoAdd.wr (h : TodoAdd s) {l : List CacheOp} (hl : AddOnly l) (j : Nat) : ∀ i, AddOnly (wr s.todo j l i) := fun i => by
  by_cases hi : i = j
  · subst hi; rw [wr_same]; exact hl
  · rw [wr_other _ _ hi]; exact h i

theorem TodoAdd.step (h : TodoAdd s) (hs : PUStep C k o ini b s s') : TodoAdd s' := by
  cases hs with
  | other x' h1 hp hs ht => exact h
  | write j u v e p cs blk hj ht h0 hb =>
    exact TodoAdd.wr h (.ite (replaceOps_add _ _ _ _ _ _ _ _ _ _) .nil) j
  | grow j e p cs blk ht hp hbi h0 hb =>
    exact TodoAdd.wr h (.ite (restoreOps_add _ _ _ _ _ _ _ _ _ _ _) .nil) j
  | cache j i a rest h0 =>
    exact TodoAdd.wr h (fun op hop => h j op (by rw [h0]; exact List.mem_cons_of_mem _ hop)) j

theorem TodoAdd.steps (h : TodoAdd s) (hs : PUSteps C k o ini b s t) : TodoAdd t := by
  induction hs with
  | refl => exact h
  | tail s' s'' _ h' ih => exact ih.step h'

theorem PUSteps.trans {x y z : PUSt σ} (h1 : PUSteps C k o ini b x y) (h2 : PUSteps C k o ini b y z) : PUSteps C k o ini b x z := by
  induction h2 with
  | refl => exact h1
  | tail s' s'' _ h' ih => exact .tail _ _ _ ih h'

/-- the operations of one memento are executed -/
theorem drain_one (j : Nat) : ∀ (l : List CacheOp) (s : PUSt σ), TodoAdd s → s.todo j = l →
    ∃ t, PUSteps C k o ini b s t ∧ t.x = s.x ∧ t.P = s.P ∧ t.todo j = [] ∧ ∀ i, i ≠ j → t.todo i = s.todo i
  | [], s, _, h0 => ⟨s, .refl _, rfl, rfl, h0, fun _ _ => rfl⟩
  | op :: l, s, ha, h0 => by
    obtain ⟨i, a, rfl⟩ := ha j op (by rw [h0]; exact List.mem_cons_self)
    have hst : PUStep C k o ini b s _ := .cache s j i a l h0
    obtain ⟨t, h1, h2, h3, h4, h5⟩ := drain_one j l _ (ha.step hst) (wr_same _ _ _)
    refine ⟨t, PUSteps.trans (.tail _ _ _ (.refl _) hst) h1, h2, h3, h4, fun i' hi => ?_⟩
    rw [h5 i' hi]; exact wr_other _ _ hi

/-- all operations are executed -/
theorem drain : ∀ (n : Nat) (s : PUSt σ), TodoAdd s → (∀ j, n ≤ j → s.todo j = []) → ∃ t, PUSteps C k o ini b s t ∧ t.x = s.x ∧ t.P = s.P ∧ ∀ j, t.todo j = []
  | 0, s, _, h => ⟨s, .refl _, rfl, rfl, fun j => h j (Nat.zero_le _)⟩
  | n + 1, s, ha, h => by
    obtain ⟨t, h1, h2, h3, h4, h5⟩ := drain_one (C := C) (k := k) (o := o) (ini := ini) (b := b) n _ s ha rfl
    obtain ⟨t', g1, g2, g3, g4⟩ := drain n t (ha.steps h1) (fun j hj => by
      by_cases hjn : j = n
      · subst hjn; exact h4
      · rw [h5 j hjn]; exact h j (by omega))
    exact ⟨t', h1.trans g1, g2.trans h2, g3.trans h3, g4⟩

/-- a step of the hypergraph is a step with the partition -/
theorem lift_step (hS : Stat s0 par ver bi G) (hb : BatchOK par bi c b) (hver : ∀ v, par v ≠ v → bi v = c → ver v = V)
    (hI : UInv s0 par ver bi G V c b s.x U) (hF : PFix s0 par m k mx b part s.x.h) (hP : PInv L o ini b part cache0 s)
    (h0 : ∀ j, s.todo j = []) {x' : USt} (h : UStep b s.x x') : ∃ s', PUStep C k o ini b s s' ∧ s'.x = x' := by
  obtain ⟨x, hx⟩ : ∃ x, s.x = x := ⟨_, rfl⟩
  have horig := h
  rw [hx] at h
  cases h with
  | write j u v e p cs hj ht =>
    subst hx
    have hm : (u, v) ∈ b := List.mem_of_getElem? hj
    obtain ⟨_, bl, _, hbl⟩ := hF.parts u v hm
    exact ⟨_, .write s j u v e p cs bl hj ht (h0 j) (by rw [hP.parts]; exact hbl), rfl⟩
  | grow j e p cs ht hp hbi =>
    subst hx
    obtain ⟨_, _, _, w3, w4, _⟩ := hI.growNet hS hb hver ht hp hbi rfl
    obtain ⟨_, bl, _, hbl⟩ := hF.parts _ _ ((hb.mem _ _).2 ⟨w3, rfl, w4⟩)
    exact ⟨_, .grow s j e p cs bl ht hp hbi (h0 j) (by rw [hP.parts, hF.parEq]; exact hbl), rfl⟩
  | _ =>
    subst hx
    exact ⟨_, .other s _ horig rfl rfl (fun j _ => h0 j), rfl⟩

/-- every execution can be completed -/
theorem batch_complete (hc : Clean s0) (hS : Stat s0 par ver bi G) (hb : BatchOK par bi c b) (hver : ∀ v, par v ≠ v → bi v = c → ver v = V)
    (hI : UInv s0 par ver bi G V c b s.x U) (hF : PFix s0 par m k mx b part s.x.h) (hP : PInv L o ini b part cache0 s) (ha : TodoAdd s) :
    ∃ t, PUSteps C k o ini b s t ∧ (∀ j < b.length, t.x.tk j = .done) ∧ ∀ j, t.todo j = [] := by
  obtain ⟨y, hy, hd⟩ := hI.complete hc hS hb hver
  have key : ∀ {x y : USt}, USteps b x y → x = s.x → ∃ t, PUSteps C k o ini b s t ∧ t.x = y ∧ ∀ j, t.todo j = [] := by
    intro x y h
    induction h with
    | refl =>
      rintro rfl
      obtain ⟨t, h1, h2, _, h4⟩ := drain (C := C) (k := k) (o := o) (ini := ini) (b := b) b.length s ha hP.out
      exact ⟨t, h1, h2, h4⟩
    | tail x' x'' _ h' ih =>
      intro hx
      obtain ⟨t, h1, rfl, h3⟩ := ih hx
      obtain ⟨_, ⟨U', i2⟩, i3, i4⟩ := pu_steps hc hS hb hver hI hF hP h1
      obtain ⟨t1, g1, g2⟩ := lift_step (C := C) hS hb hver i2 i3 i4 h3 h'
      obtain ⟨_, _, _, j4⟩ := i4.step hc hS hb hver i2 i3 g1
      obtain ⟨t2, e1, e2, _, e4⟩ := drain (C := C) (k := k) (o := o) (ini := ini) (b := b) b.length t1 ((ha.steps h1).step g1) j4.out
      exact ⟨t2, (h1.trans (.tail _ _ _ (.refl _) g1)).trans e1, e2.trans g2, e4⟩
  obtain ⟨t, h1, h2, h3⟩ := key hy rfl
  exact ⟨t, h1, fun j hj => by rw [h2]; exact hd j hj, h3⟩

theorem cache_or_step (hout : ∀ j, b.length ≤ j → s.todo j = []) (h : PUStep C k o ini b s s') : UStep b s.x s'.x ∨ (s'.x = s.x ∧
      ∑ j ∈ Finset.range b.length, (s'.todo j).length < ∑ j ∈ Finset.range b.length, (s.todo j).length) := by
  cases h with
  | other x' h hp hs ht => exact Or.inl h
  | write j u v e p cs blk hj ht h0 hb' => exact Or.inl (UStep.write s.x j u v e p cs hj ht)
  | grow j e p cs blk ht hp hbi h0 hb' => exact Or.inl (UStep.grow s.x j e p cs ht hp hbi)
  | cache j i a rest h0 =>
    refine Or.inr ⟨rfl, ?_⟩
    have hj : j < b.length := by
      by_contra hj
      rw [hout j (by omega)] at h0; cases h0
    refine Finset.sum_lt_sum (fun i _ => ?_) ⟨j, Finset.mem_range.2 hj, ?_⟩
    · show (wr s.todo j rest i).length ≤ _
      by_cases hi : i = j
      · subst hi; rw [wr_same, h0]; simp
      · rw [wr_other _ _ hi]
    · show (wr s.todo j rest j).length < _
      rw [wr_same, h0]; simp

/-- number of operations that are left, and the steps of the hypergraph, decrease: no infinite execution -/
theorem batch_ends (hc : Clean s0) (hS : Stat s0 par ver bi G) (hb : BatchOK par bi c b) (hver : ∀ v, par v ≠ v → bi v = c → ver v = V)
    (hI : UInv s0 par ver bi G V c b s.x U) (hF : PFix s0 par m k mx b part s.x.h) (hP : PInv L o ini b part cache0 s)
    (f : Nat → PUSt σ) (hf0 : f 0 = s) (hf : ∀ i, PUStep C k o ini b (f i) (f (i + 1))) : False := by
  have hinv : ∀ i, ∃ U, UInv s0 par ver bi G V c b (f i).x U ∧ PFix s0 par m k mx b part (f i).x.h ∧ PInv L o ini b part cache0 (f i) := by
    intro i
    induction i with
    | zero => rw [hf0]; exact ⟨U, hI, hF, hP⟩
    | succ i ih =>
      obtain ⟨U, h1, h2, h3⟩ := ih
      obtain ⟨_, ⟨U', j2⟩, j3, j4⟩ := h3.step hc hS hb hver h1 h2 (hf i)
      exact ⟨U', j2, j3, j4⟩
  have hslots : ∀ i e, ((f i).x.h.pins e).length = (s.x.h.pins e).length := by
    intro i
    induction i with
    | zero => intro e; rw [hf0]
    | succ i ih =>
      intro e
      obtain ⟨U, h1, h2, h3⟩ := hinv i
      rcases cache_or_step h3.out (hf i) with h | ⟨h, _⟩
      · rw [h.slots e, ih e]
      · rw [h, ih e]
  have key : ∀ (a d r i : Nat), (f i).x.pre b.length = a → (f i).x.cost (fun e => (s.x.h.pins e).length) b.length = d →
      ∑ j ∈ Finset.range b.length, ((f i).todo j).length = r → False := by
    intro a
    induction a using Nat.strong_induction_on with
    | _ a iha =>
      intro d
      induction d using Nat.strong_induction_on with
      | _ d ihd =>
        intro r
        induction r using Nat.strong_induction_on with
        | _ r ihr =>
          intro i h1 h2 h3
          obtain ⟨U, hU, _, hPi⟩ := hinv i
          rcases cache_or_step hPi.out (hf i) with h | ⟨g1, g2⟩
          · rcases hU.decr hS h (P := fun e => (s.x.h.pins e).length) (fun e => (hslots i e).symm) with h | ⟨h4, h5⟩
            · exact iha _ (by rw [← h1]; exact h) _ _ (i + 1) rfl rfl rfl
            · exact ihd _ (by rw [← h2]; exact h5) _ (i + 1) (by rw [h4, h1]) rfl rfl
          · exact ihr _ (by rw [← h3]; exact g2) (i + 1) (by rw [g1, h1]) (by rw [g1, h2]) rfl
  exact key _ _ _ 0 rfl rfl rfl

end
end Dyn
end Verif
