import Verif.Lemmas.NLP3
import Verif.Lemmas.ConInfo
import Verif.Lemmas.PHG
/-!
# Invariant of the partition and the gain cache during the uncontraction of a batch
-/
namespace Verif
namespace Dyn
open SMap (wr)

/-- number of pins in a block -/
def bcnt (part : Assign) (pins : List Nat) (b : Nat) : Nat := pins.countP (fun x => decide (part x = some b))

/-- benefit term of `x` for block `b` -/
def benSum (o : Metrics.Obj) (m : Nat) (h : DH) (part : Assign) (x b : Nat) : Int :=
  ∑ e ∈ Finset.range m, if h.een e = true then netBen o (h.ew e) (h.edgePins e) (bcnt part (h.edgePins e)) x b else 0

/-- penalty term of `x` -/
def penSum (o : Metrics.Obj) (m : Nat) (h : DH) (part : Assign) (x : Nat) : Int :=
  ∑ e ∈ Finset.range m, if h.een e = true then netPen o (h.ew e) part (h.edgePins e) (bcnt part (h.edgePins e)) x else 0

/-- weight of a block -/
def wtSum (h : DH) (part : Assign) (b : Nat) : Int :=
  ∑ v ∈ Finset.range h.n, if h.en v = true ∧ part v = some b then h.wt v else 0

variable {σ : Type} {C : ConInfo σ} {m k mx : Nat}

structure PInv (L : C.Lawful m k mx) (o : Metrics.Obj) (ini : Bool) (batch : List (Nat × Nat)) (part : Assign) (cache0 : Nat → Int) (s : PUSt σ) : Prop where
  parts : s.P.part = part
  con : ∃ T, L.R s.P.con T ∧ ∀ e, e < m → ∀ b, b < k → T e b = if s.x.h.een e = true then bcnt part (s.x.h.edgePins e) b else 0
  asg : ∀ e, e < m → s.x.h.een e = true → ∀ x ∈ s.x.h.edgePins e, ∃ b, b < k ∧ part x = some b
  wt : ∀ b, b < k → s.P.wt b = wtSum s.x.h part b
  out : ∀ j, batch.length ≤ j → s.todo j = []
  ben : ini = true → ∀ x b, b < k → s.cache (benIdx k x b) + ∑ j ∈ Finset.range batch.length, opsSum part (benIdx k x b) (s.todo j) = benSum o m s.x.h part x b
  pen : ini = true → ∀ x, s.cache (penIdx k x) + ∑ j ∈ Finset.range batch.length, opsSum part (penIdx k x) (s.todo j) = penSum o m s.x.h part x
  off : ini = false → s.cache = cache0 ∧ ∀ j, s.todo j = []

theorem sum_change {m e : Nat} (he : e < m) (f f' : Nat → Int) (h : ∀ e', e' ≠ e → f' e' = f e') :
    ∑ i ∈ Finset.range m, f' i = ∑ i ∈ Finset.range m, f i + (f' e - f e) := by
  have hm : e ∈ Finset.range m := Finset.mem_range.2 he
  have hs : ((Finset.range m).erase e).sum f' = ((Finset.range m).erase e).sum f := Finset.sum_congr rfl (fun x hx => h x (Finset.ne_of_mem_erase hx))
  have h1 := Finset.add_sum_erase _ f' hm
  have h2 := Finset.add_sum_erase _ f hm
  rw [hs] at h1
  show (Finset.range m).sum f' = (Finset.range m).sum f + _
  have h1 : f' e + ((Finset.range m).erase e).sum f = (Finset.range m).sum f' := h1
  have h2 : f e + ((Finset.range m).erase e).sum f = (Finset.range m).sum f := h2
  omega

theorem sum_todo {len j : Nat} (hj : j < len) (Φ : Assign) (i : Nat) (todo : Nat → List CacheOp) (l : List CacheOp) :
    ∑ j' ∈ Finset.range len, opsSum Φ i (wr todo j l j') = ∑ j' ∈ Finset.range len, opsSum Φ i (todo j') + (opsSum Φ i l - opsSum Φ i (todo j)) := by
  rw [sum_change hj (fun j' => opsSum Φ i (todo j')) (fun j' => opsSum Φ i (wr todo j l j')) (fun j' hne => by rw [wr_other _ _ hne])]
  simp only [wr_same]

variable {s0 : DH} {par ver bi : Nat → Nat} {G : Gh} {V c : Nat} {b : List (Nat × Nat)} {U : UG} {L : C.Lawful m k mx} {o : Metrics.Obj} {ini : Bool}
  {part : Assign} {cache0 : Nat → Int} {s s' : PUSt σ}

theorem netCnt_of {con : σ} {T : Table} (hR : L.R con T) {e : Nat} (he : e < m) {pins : List Nat} (hn : pins.Nodup)
    (ha : ∀ x ∈ pins, ∃ b, b < k ∧ part x = some b) (hT : ∀ b, b < k → T e b = bcnt part pins b) :
    NetCnt k part pins (C.connSet con e) (C.connectivity con e) (C.pinCount con e) := by
  refine ⟨hn, ha, ?_, L.connSet_nodup hR he, ?_, L.connectivity_eq hR he⟩
  · intro b hb
    rw [L.pinCount_eq hR he hb, hT b hb]; rfl
  · intro b
    rw [L.connSet_mem hR he]
    constructor
    · rintro ⟨h1, h2⟩
      exact ⟨h1, by rw [L.pinCount_eq hR he h1]; exact h2⟩
    · rintro ⟨h1, h2⟩
      exact ⟨h1, by rw [L.pinCount_eq hR he h1] at h2; exact h2⟩

theorem netBen_congr {o : Metrics.Obj} {w : Int} {pins : List Nat} {pc pc' : Nat → Nat} {x b : Nat} (h : pc b = pc' b) : netBen o w pins pc x b = netBen o w pins pc' x b := by
  unfold netBen; rw [h]

theorem netPen_congr {o : Metrics.Obj} {w : Int} {pins : List Nat} {pc pc' : Nat → Nat} {x : Nat} (ha : ∀ x ∈ pins, ∃ b, b < k ∧ part x = some b) (h : ∀ b, b < k → pc b = pc' b) :
    netPen o w part pins pc x = netPen o w part pins pc' x := by
  unfold netPen
  by_cases hx : x ∈ pins
  · obtain ⟨b, hb, hp⟩ := ha x hx
    rw [if_pos hx, if_pos hx, hp]
    simp only
    rw [h b hb]
  · rw [if_neg hx, if_neg hx]

/-- what the block weights depend on -/
theorem wtSum_enable {h : DH} {u v : Nat} (hu : u < h.n) (hv : v < h.n) (huv : u ≠ v) (hen : h.en u = true) (hev : h.en v = false) (hp : part v = part u) (bl : Nat) :
    wtSum { h with en := wr h.en v true, wt := wr h.wt u (h.wt u - h.wt v) } part bl = wtSum h part bl := by
  unfold wtSum
  show ∑ x ∈ Finset.range h.n, (if wr h.en v true x = true ∧ part x = some bl then wr h.wt u (h.wt u - h.wt v) x else 0) = _
  have hpt : ∀ x, (if wr h.en v true x = true ∧ part x = some bl then wr h.wt u (h.wt u - h.wt v) x else 0) =
      (if h.en x = true ∧ part x = some bl then h.wt x else 0) + ((if v = x then (if part u = some bl then h.wt v else 0) else 0) -
        (if u = x then (if part u = some bl then h.wt v else 0) else 0)) := by
    intro x
    by_cases hxv : x = v
    · subst hxv
      rw [wr_same, wr_other _ _ (Ne.symm huv), hev, hp]
      simp [huv]
    · rw [wr_other _ _ hxv, if_neg (c := v = x) (fun h => hxv h.symm)]
      by_cases hxu : x = u
      · subst hxu
        rw [wr_same, hen]
        by_cases hb : part x = some bl
        · simp [hb]; omega
        · simp [hb]
      · rw [wr_other _ _ hxu, if_neg (c := u = x) (fun h => hxu h.symm)]; omega
  rw [Finset.sum_congr rfl (fun x _ => hpt x), Finset.sum_add_distrib, Finset.sum_sub_distrib, Finset.sum_ite_eq, Finset.sum_ite_eq,
    if_pos (Finset.mem_range.2 hv), if_pos (Finset.mem_range.2 hu)]
  omega

theorem PInv.netStep (hP : PInv L o ini b part cache0 s) {x' : USt} {con' : σ} {e j : Nat} {ops : List CacheOp} (he : e < m) (hj : j < b.length) (h0 : s.todo j = [])
    (heen : s.x.h.een e = true) (e1 : x'.h.een = s.x.h.een) (e2 : x'.h.ew = s.x.h.ew) (e3 : x'.h.n = s.x.h.n) (e4 : x'.h.en = s.x.h.en) (e5 : x'.h.wt = s.x.h.wt)
    (e6 : ∀ e', e' ≠ e → x'.h.edgePins e' = s.x.h.edgePins e') (ha : ∀ x ∈ x'.h.edgePins e, ∃ b, b < k ∧ part x = some b)
    (hcon : ∃ T, L.R con' T ∧ ∀ e', e' < m → ∀ b, b < k → T e' b = if x'.h.een e' = true then bcnt part (x'.h.edgePins e') b else 0)
    (hben : ini = true → ∀ x b, b < k → opsSum part (benIdx k x b) ops = netBen o (s.x.h.ew e) (x'.h.edgePins e) (bcnt part (x'.h.edgePins e)) x b -
      netBen o (s.x.h.ew e) (s.x.h.edgePins e) (bcnt part (s.x.h.edgePins e)) x b)
    (hpen : ini = true → ∀ x, opsSum part (penIdx k x) ops = netPen o (s.x.h.ew e) part (x'.h.edgePins e) (bcnt part (x'.h.edgePins e)) x -
      netPen o (s.x.h.ew e) part (s.x.h.edgePins e) (bcnt part (s.x.h.edgePins e)) x) :
    PInv L o ini b part cache0 { s with x := x', P := { s.P with con := con' }, todo := wr s.todo j (if ini = true then ops else []) } := by
  refine ⟨hP.parts, hcon, ?_, ?_, ?_, ?_, ?_, ?_⟩
  · intro e' he' hee x hx
    by_cases h : e' = e
    · subst h; exact ha x hx
    · have hee : x'.h.een e' = true := hee
      have hx : x ∈ x'.h.edgePins e' := hx
      rw [e1] at hee
      rw [e6 e' h] at hx
      exact hP.asg e' he' hee x hx
  · intro bl hbl
    show s.P.wt bl = wtSum x'.h part bl
    unfold wtSum
    rw [e3, e4, e5]; exact hP.wt bl hbl
  · intro j' hj'
    show wr s.todo j _ j' = []
    rw [wr_other _ _ (by omega)]; exact hP.out j' hj'
  · intro hi x bl hbl
    show s.cache _ + ∑ j' ∈ _, opsSum part _ (wr s.todo j _ j') = benSum o m x'.h part x bl
    rw [sum_todo hj, h0, opsSum_nil, if_pos hi, hben hi x bl hbl]
    unfold benSum
    rw [sum_change he (fun e => if s.x.h.een e = true then netBen o (s.x.h.ew e) (s.x.h.edgePins e) (bcnt part (s.x.h.edgePins e)) x bl else 0) _
      (fun e' hne => by rw [e1, e2, e6 e' hne])]
    rw [e1, e2, if_pos heen, if_pos heen]
    have := hP.ben hi x bl hbl
    unfold benSum at this
    omega
  · intro hi x
    show s.cache _ + ∑ j' ∈ _, opsSum part _ (wr s.todo j _ j') = penSum o m x'.h part x
    rw [sum_todo hj, h0, opsSum_nil, if_pos hi, hpen hi x]
    unfold penSum
    rw [sum_change he (fun e => if s.x.h.een e = true then netPen o (s.x.h.ew e) part (s.x.h.edgePins e) (bcnt part (s.x.h.edgePins e)) x else 0) _
      (fun e' hne => by rw [e1, e2, e6 e' hne])]
    rw [e1, e2, if_pos heen, if_pos heen]
    have := hP.pen hi x
    unfold penSum at this
    omega
  · intro hi
    refine ⟨(hP.off hi).1, fun j' => ?_⟩
    show wr s.todo j _ j' = []
    by_cases hjj : j' = j
    · subst hjj; rw [wr_same, hi]; rfl
    · rw [wr_other _ _ hjj]; exact (hP.off hi).2 j'

theorem UStep.frame {x y : USt} (h : UStep b x y) : y.h.een = x.h.een ∧ y.h.ew = x.h.ew ∧ y.h.n = x.h.n ∧ y.h.par = x.h.par ∧
    ((y.h.en = x.h.en ∧ y.h.wt = x.h.wt) ∨ ∃ j u v, b[j]? = some (u, v) ∧ x.tk j = .nets [] ∧ y.h.en = wr x.h.en v true ∧ y.h.wt = wr x.h.wt u (x.h.wt u - x.h.wt v)) := by
  cases h with
  | enable j u v hj ht => exact ⟨rfl, rfl, rfl, rfl, Or.inr ⟨j, u, v, hj, ht, rfl, rfl⟩⟩
  | _ => exact ⟨rfl, rfl, rfl, rfl, Or.inl ⟨rfl, rfl⟩⟩

theorem bcnt_append (part : Assign) (pins : List Nat) (x b : Nat) : bcnt part (pins ++ [x]) b = bcnt part pins b + if part x = some b then 1 else 0 := by
  unfold bcnt; rw [List.countP_append, List.countP_cons, List.countP_nil]; simp

theorem bcnt_set {pins : List Nat} {p u v : Nat} (hp : p < pins.length) (hu : pins.getD p 0 = u) (h : part v = part u) (b : Nat) :
    bcnt part (pins.set p v) b = bcnt part pins b := by
  induction pins generalizing p with
  | nil => cases hp
  | cons a l ih =>
    cases p with
    | zero =>
      have : a = u := hu
      subst this
      show List.countP _ (v :: l) = List.countP _ (a :: l)
      rw [List.countP_cons, List.countP_cons, h]
    | succ p =>
      show List.countP _ (a :: l.set p v) = List.countP _ (a :: l)
      rw [List.countP_cons, List.countP_cons]
      have := ih (p := p) (by simpa using hp) (by simpa using hu)
      unfold bcnt at this
      rw [this]

end Dyn
end Verif
