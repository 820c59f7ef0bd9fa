import Verif.Model.Jet
import Verif.Lemmas.DReb2
import Verif.Lemmas.Gain
import Verif.Lemmas.Rollback2
/-!
# Lemmas on the deterministic Jet refiner: afterburner
-/
namespace Verif
namespace Jet
open SMap (wr)

/-! ### Order of the pins -/

theorem first_asymm {gt : GT} {a b : Nat} (h : first gt a b) : ¬ first gt b a := by unfold first at *; omega

theorem first_total {gt : GT} {a b : Nat} (h : a ≠ b) : first gt a b ∨ first gt b a := by unfold first; omega

theorem perm3 {a b c x y z : Nat} (h : (x = a ∧ y = b ∧ z = c) ∨ (x = a ∧ y = c ∧ z = b) ∨ (x = b ∧ y = a ∧ z = c) ∨ (x = b ∧ y = c ∧ z = a) ∨
    (x = c ∧ y = a ∧ z = b) ∨ (x = c ∧ y = b ∧ z = a)) : [x, y, z].Perm [a, b, c] := by
  rcases h with ⟨rfl, rfl, rfl⟩ | ⟨rfl, rfl, rfl⟩ | ⟨rfl, rfl, rfl⟩ | ⟨rfl, rfl, rfl⟩ | ⟨rfl, rfl, rfl⟩ | ⟨rfl, rfl, rfl⟩ <;>
    (refine List.perm_iff_count.2 (fun t => ?_); simp only [List.count_cons, List.count_nil]; try omega)

theorem sorted_spec {gt : GT} : ∀ {l l' : List Nat}, Sorted gt l l' → l.Nodup → l'.Perm l ∧ l'.Pairwise (first gt) := by
  intro l l' h hn
  match l, h, hn with
  | [], h, _ => rw [show l' = [] from h]; exact ⟨List.Perm.refl _, List.Pairwise.nil⟩
  | [a], h, _ => rw [show l' = [a] from h]; exact ⟨List.Perm.refl _, by simp⟩
  | [a, b], h, hn =>
    rw [show l' = [(swap2 gt a b).1, (swap2 gt a b).2] from h]
    have hab : a ≠ b := by rintro rfl; simp at hn
    unfold swap2
    split_ifs with h1
    · exact ⟨List.Perm.refl _, by simp [h1]⟩
    · exact ⟨List.Perm.swap a b [], by simp [(first_total hab).resolve_left h1]⟩
  | [a, b, c], h, hn =>
    rw [show l' = net3 gt a b c from h]
    simp only [List.nodup_cons, List.mem_cons, List.not_mem_nil, or_false, not_or, not_false_eq_true, List.nodup_nil, and_true] at hn
    obtain ⟨⟨hab, hac⟩, hbc⟩ := hn
    unfold net3 swap2
    dsimp only
    constructor
    · apply perm3
      split_ifs <;> simp
    · split_ifs <;> simp only [List.pairwise_cons, List.mem_cons, List.not_mem_nil, or_false, forall_eq_or_imp, forall_eq, false_imp_iff, implies_true,
        List.Pairwise.nil, and_true] <;> dsimp only at * <;> unfold first at * <;> omega
  | a :: b :: c :: d :: t, h, _ => exact h

theorem sorted_exists {gt : GT} (l : List Nat) (hn : l.Nodup) : ∃ l', Sorted gt l l' := by
  match l, hn with
  | [], _ => exact ⟨[], rfl⟩
  | [a], _ => exact ⟨[a], rfl⟩
  | [a, b], _ => exact ⟨_, rfl⟩
  | [a, b, c], _ => exact ⟨_, rfl⟩
  | a :: b :: c :: d :: t, hn =>
    refine ⟨(a :: b :: c :: d :: t).insertionSort (fun x y => first gt x y ∨ x = y), List.perm_insertionSort _ _, ?_⟩
    have : Std.Total (fun x y => first gt x y ∨ x = y) := ⟨fun x y => by
      by_cases h : x = y
      · exact Or.inl (Or.inr h)
      · rcases first_total (gt := gt) h with h | h
        · exact Or.inl (Or.inl h)
        · exact Or.inr (Or.inl h)⟩
    have : IsTrans Nat (fun x y => first gt x y ∨ x = y) := ⟨fun x y z h h' => by
      rcases h with h | rfl
      · rcases h' with h' | rfl
        · left; unfold first at *; omega
        · exact Or.inl h
      · exact h'⟩
    have h1 := List.pairwise_insertionSort (fun x y => first gt x y ∨ x = y) (a :: b :: c :: d :: t)
    have h2 : ((a :: b :: c :: d :: t).insertionSort (fun x y => first gt x y ∨ x = y)).Nodup := (List.perm_insertionSort _ _).nodup_iff.2 hn
    refine (h1.and h2).imp ?_
    rintro x y ⟨h3, h4⟩
    exact h3.resolve_right h4

theorem sorted_uniq {gt : GT} {l l1 l2 : List Nat} (hn : l.Nodup) (h1 : Sorted gt l l1) (h2 : Sorted gt l l2) : l1 = l2 := by
  obtain ⟨p1, q1⟩ := sorted_spec h1 hn
  obtain ⟨p2, q2⟩ := sorted_spec h2 hn
  exact List.Perm.eq_of_pairwise (fun a b _ _ h h' => absurd h' (first_asymm h)) q1 q2 (p1.trans p2.symm)

/-! ### Values added for a node -/

/-- sum of the values added for `v` -/
def tot (v : Nat) (l : List (Nat × Int)) : Int := (l.map (fun x => if x.1 = v then x.2 else 0)).sum

theorem tot_append (v : Nat) (l l' : List (Nat × Int)) : tot v (l ++ l') = tot v l + tot v l' := by
  unfold tot; rw [List.map_append, List.sum_append]

theorem tot_perm {v : Nat} {l l' : List (Nat × Int)} (h : l.Perm l') : tot v l = tot v l' := (h.map _).sum_eq

theorem tot_flatMap (v : Nat) (f : Nat → List (Nat × Int)) (es : List Nat) : tot v (es.flatMap f) = (es.map (fun e => tot v (f e))).sum := by
  induction es with
  | nil => rfl
  | cons e es ih => rw [List.flatMap_cons, tot_append, ih, List.map_cons, List.sum_cons]

theorem fold_tot (v : Nat) : ∀ (l : List (Nat × Int)) (f : Nat → Int), l.foldl (fun f x => wr f x.1 (f x.1 + x.2)) f v = f v + tot v l := by
  intro l
  induction l with
  | nil => intro f; simp [tot]
  | cons x l ih =>
    intro f
    rw [List.foldl_cons, ih]
    unfold tot wr
    rw [List.map_cons, List.sum_cons]
    by_cases h : x.1 = v
    · subst h; simp; ring
    · rw [if_neg (fun hh => h hh.symm), if_neg h]; ring

/-- the assignment of the pins just before `v` is moved in the order of the afterburner -/
def pre (part : Nat → Nat) (gt : GT) (v : Nat) : Assign := fun u => some (if first gt u v then (gt u).2 else part u)

/-- change of the objective for hyperedge `e` -/
def diff (H : HG) (o : Metrics.Obj) (part : Nat → Nat) (gt : GT) (e v : Nat) : Int :=
  H.term ((pre part gt v).put v (gt v).2) e o - H.term (pre part gt v) e o

def doneΨ (part : Nat → Nat) (gt : GT) (done : List Nat) : Assign := fun u => some (if u ∈ done then (gt u).2 else part u)

theorem scan_spec {H : HG} {o : Metrics.Obj} {k e : Nat} {part : Nat → Nat} {gt : GT} (hn : (H.pins e).Nodup) :
    ∀ (rest done : List Nat) (pc : Nat → Nat), (∀ b < k, pc b = H.pinsIn (doneΨ part gt done) e b) → (done ++ rest).Nodup →
    (done ++ rest).Pairwise (first gt) →
    (∀ v ∈ rest, v ∈ H.pins e ∧ part v < k ∧ (gt v).2 < k ∧ part v ≠ (gt v).2) → (∀ u ∈ H.pins e, part u ≠ (gt u).2 → u ∈ done ++ rest) →
    ∀ v, tot v (scan o e (H.ew e) (H.pins e).length part gt pc rest) = if v ∈ rest then diff H o part gt e v else 0 := by
  intro rest
  induction rest with
  | nil => intro done pc _ _ _ _ _ v; rfl
  | cons x rest ih =>
    intro done pc hpc hnd hpw hr hall v
    obtain ⟨hx, hxk, htk, hne⟩ := hr x List.mem_cons_self
    have hxd : x ∉ done := by
      rw [List.nodup_append] at hnd
      exact fun h => hnd.2.2 x h x List.mem_cons_self rfl
    have hxr : x ∉ rest := by
      rw [List.nodup_append] at hnd
      exact (List.nodup_cons.1 hnd.2.1).1
    have hagree : ∀ u ∈ H.pins e, doneΨ part gt done u = pre part gt x u := by
      intro u hu
      unfold doneΨ pre
      rw [List.pairwise_append] at hpw
      by_cases hud : u ∈ done
      · rw [if_pos hud, if_pos (hpw.2.2 u hud x List.mem_cons_self)]
      · rw [if_neg hud]
        by_cases hm : part u = (gt u).2
        · rw [hm]; simp
        · have := hall u hu hm
          rcases List.mem_append.1 this with h | h
          · exact absurd h hud
          · rcases List.mem_cons.1 h with rfl | h
            · rw [if_neg (fun hh => first_asymm hh hh)]
            · rw [if_neg (first_asymm (List.rel_of_pairwise_cons hpw.2.1 h))]
    have hput : ∀ u, (doneΨ part gt done).put x (gt x).2 u = doneΨ part gt (done ++ [x]) u := by
      intro u
      unfold Assign.put doneΨ
      by_cases h : u = x
      · subst h; simp
      · simp [h]
    have hsrc : doneΨ part gt done x = some (part x) := by unfold doneΨ; rw [if_neg hxd]
    have key : ∀ b, H.pinsIn ((doneΨ part gt done).put x (gt x).2) e b + (if part x = b then 1 else 0) =
        H.pinsIn (doneΨ part gt done) e b + (if b = (gt x).2 then 1 else 0) := by
      intro b
      have := HG.pinsIn_put_mem (Φ := doneΨ part gt done) (b := (gt x).2) (c := b) hn hx
      rw [hsrc] at this
      simpa only [Option.some.injEq] using this
    have hlt : 0 < H.pinsIn (doneΨ part gt done) e (part x) := by
      unfold HG.pinsIn; rw [List.countP_pos_iff]; exact ⟨x, hx, by simp [hsrc]⟩
    unfold scan
    dsimp only
    have h1 : wr pc (part x) (pc (part x) - 1) (part x) = H.pinsIn ((doneΨ part gt done).put x (gt x).2) e (part x) := by
      have := key (part x)
      rw [if_pos rfl, if_neg hne] at this
      unfold wr
      rw [if_pos rfl, hpc _ hxk]
      omega
    have h2 : wr (wr pc (part x) (pc (part x) - 1)) (gt x).2 (wr pc (part x) (pc (part x) - 1) (gt x).2 + 1) (gt x).2 =
        H.pinsIn ((doneΨ part gt done).put x (gt x).2) e (gt x).2 := by
      have := key (gt x).2
      rw [if_neg hne, if_pos rfl] at this
      unfold wr
      rw [if_pos rfl, if_neg (Ne.symm hne), hpc _ htk]
      omega
    have hg : attrGain o ⟨e, part x, (gt x).2, H.ew e, (H.pins e).length, wr pc (part x) (pc (part x) - 1) (part x),
        wr (wr pc (part x) (pc (part x) - 1)) (gt x).2 (wr pc (part x) (pc (part x) - 1) (gt x).2 + 1) (gt x).2⟩ = diff H o part gt e x := by
      rw [h1, h2]
      have := attrGain_eq (H := H) (Φ := doneΨ part gt done) hn hx hsrc hne (fun v _ => by simp [doneΨ]) o
      unfold HG.mkUpdate at this
      rw [this]
      unfold diff
      rw [HG.term_congr (Φ := (doneΨ part gt done).put x (gt x).2) (Ψ := (pre part gt x).put x (gt x).2) (fun u hu => by unfold Assign.put; rw [hagree u hu]) o, HG.term_congr (Φ := doneΨ part gt done) hagree o]
    rw [hg, tot_append]
    have ih' := ih (done ++ [x]) (wr (wr pc (part x) (pc (part x) - 1)) (gt x).2 (wr pc (part x) (pc (part x) - 1) (gt x).2 + 1)) (fun b hb => by
        rw [← funext hput]
        have := key b
        unfold wr
        by_cases hb1 : b = (gt x).2
        · subst hb1
          rw [if_pos rfl, if_neg (Ne.symm hne)]
          rw [if_neg hne, if_pos rfl] at this
          rw [hpc _ hb]; omega
        · rw [if_neg hb1]
          rw [if_neg hb1] at this
          by_cases hb2 : b = part x
          · subst hb2
            rw [if_pos rfl]
            rw [if_pos rfl] at this
            rw [hpc _ hb]; omega
          · rw [if_neg hb2]
            rw [if_neg (Ne.symm hb2)] at this
            rw [hpc _ hb]; omega) (by simpa using hnd) (by simpa using hpw) (fun v hv => hr v (List.mem_cons_of_mem _ hv)) (by simpa using hall) v
    rw [ih']
    have htx : tot v (if diff H o part gt e x ≠ 0 then [(x, diff H o part gt e x)] else []) = if x = v then diff H o part gt e v else 0 := by
      by_cases hz : diff H o part gt e x ≠ 0
      · rw [if_pos hz]
        unfold tot
        simp only [List.map_cons, List.map_nil, List.sum_cons, List.sum_nil, Int.add_zero]
        by_cases hxv : x = v
        · subst hxv; rfl
        · rw [if_neg hxv, if_neg hxv]
      · rw [if_neg hz]
        push Not at hz
        by_cases hxv : x = v
        · subst hxv; rw [if_pos rfl, hz]; rfl
        · rw [if_neg hxv]; rfl
    rw [htx]
    by_cases hxv : x = v
    · subst hxv
      rw [if_pos rfl, if_neg hxr, if_pos List.mem_cons_self]; ring
    · rw [if_neg hxv]
      by_cases hv : v ∈ rest
      · rw [if_pos hv, if_pos (List.mem_cons_of_mem _ hv)]; ring
      · rw [if_neg hv, if_neg (fun h => (List.mem_cons.1 h).elim (fun hh => hxv hh.symm) hv)]; rfl

theorem scan_congr {o : Metrics.Obj} {k e n : Nat} {w : Int} {part : Nat → Nat} {gt : GT} : ∀ (l : List Nat) (pc pc' : Nat → Nat), (∀ b < k, pc b = pc' b) →
    (∀ v ∈ l, part v < k ∧ (gt v).2 < k) → scan o e w n part gt pc l = scan o e w n part gt pc' l := by
  intro l
  induction l with
  | nil => intro pc pc' _ _; rfl
  | cons x l ih =>
    intro pc pc' h hl
    obtain ⟨h1, h2⟩ := hl x List.mem_cons_self
    have e1 : ∀ b < k, wr pc (part x) (pc (part x) - 1) b = wr pc' (part x) (pc' (part x) - 1) b := by
      intro b hb; unfold wr; rw [h _ h1, h b hb]
    have e2 : ∀ b < k, wr (wr pc (part x) (pc (part x) - 1)) (gt x).2 (wr pc (part x) (pc (part x) - 1) (gt x).2 + 1) b =
        wr (wr pc' (part x) (pc' (part x) - 1)) (gt x).2 (wr pc' (part x) (pc' (part x) - 1) (gt x).2 + 1) b := by
      intro b hb
      show (if b = (gt x).2 then _ else _) = (if b = (gt x).2 then _ else _)
      rw [e1 _ h2, e1 b hb]
    unfold scan
    dsimp only
    rw [e1 _ h1, e2 _ h2, ih _ _ e2 (fun v hv => hl v (List.mem_cons_of_mem _ hv))]

/-! ### Hyperedges with two pins -/

theorem lam_two {H : HG} {Ψ : Assign} {e a b x y : Nat} (hp : H.pins e = [a, b] ∨ H.pins e = [b, a]) (ha : Ψ a = some x) (hb : Ψ b = some y) :
    H.lam Ψ e = if x = y then 1 else 2 := by
  have : H.blocksOf Ψ e = {x, y} := by
    unfold HG.blocksOf
    rcases hp with hp | hp <;> rw [hp] <;> simp [ha, hb]
    exact Finset.pair_comm _ _
  unfold HG.lam
  rw [this]
  split_ifs with h
  · subst h; simp
  · exact Finset.card_pair h

theorem term_two {H : HG} {Ψ : Assign} {e a b x y : Nat} {o : Metrics.Obj} (ho : o ≠ .soed) (hp : H.pins e = [a, b] ∨ H.pins e = [b, a])
    (ha : Ψ a = some x) (hb : Ψ b = some y) : H.term Ψ e o = if x = y then 0 else H.ew e := by
  have := lam_two hp ha hb
  cases o with
  | soed => exact absurd rfl ho
  | cut => unfold HG.term; rw [this]; split_ifs <;> simp_all
  | km1 => unfold HG.term; rw [this]; split_ifs <;> simp_all

theorem orderTwo_spec {gt : GT} {p q : Nat} (h : p ≠ q) :
    ∃ a b, orderTwo gt [p, q] = (some a, some b) ∧ first gt a b ∧ a ≠ b ∧ ([p, q] = [a, b] ∨ [p, q] = [b, a]) := by
  unfold orderTwo
  simp only [List.foldl_cons, List.foldl_nil]
  by_cases hf : first gt q p
  · rw [if_pos hf]; exact ⟨q, p, rfl, hf, Ne.symm h, Or.inr rfl⟩
  · rw [if_neg hf]; exact ⟨p, q, rfl, (first_total h).resolve_right hf, h, Or.inl rfl⟩

theorem tot_two (v a x y z : Nat) (w : Int) : tot v (if x ≠ y then if x = z then [(a, w)] else if y = z then [(a, -w)] else [] else []) =
    if v = a ∧ x ≠ y then (if y = z then 0 else w) - (if x = z then 0 else w) else 0 := by
  unfold tot
  by_cases hva : v = a
  · subst hva
    by_cases h1 : x = y
    · simp [h1]
    · by_cases h2 : x = z
      · subst h2; simp [h1, Ne.symm h1]
      · by_cases h3 : y = z
        · subst h3; simp [h1]
        · simp [h1, h2, h3]
  · have : ¬ a = v := fun h => hva h.symm
    rw [show (if v = a ∧ x ≠ y then (if y = z then 0 else w) - (if x = z then 0 else w) else 0) = 0 from if_neg (fun h => hva h.1)]
    split_ifs <;> simp [this]

theorem twoPins_spec {H : HG} {o : Metrics.Obj} (ho : o ≠ .soed) {e : Nat} {part : Nat → Nat} {gt : GT} (hn : (H.pins e).Nodup) (h2 : (H.pins e).length = 2) (v : Nat) :
    tot v (twoPins part gt (H.ew e) (H.pins e)) = if v ∈ H.pins e ∧ part v ≠ (gt v).2 then diff H o part gt e v else 0 := by
  obtain ⟨p, q, hpq⟩ := List.length_eq_two.1 h2
  have hne : p ≠ q := by rw [hpq] at hn; rintro rfl; simp at hn
  obtain ⟨a, b, h1, hf, hab, hl⟩ := orderTwo_spec (gt := gt) hne
  have hpins : H.pins e = [a, b] ∨ H.pins e = [b, a] := by rw [hpq]; exact hl
  have hmem : v ∈ H.pins e ↔ v = a ∨ v = b := by rcases hpins with h | h <;> rw [h] <;> simp [or_comm]
  unfold twoPins
  rw [hpq, h1]
  dsimp only
  rw [← hpq, tot_append]
  have hfaa : ¬ first gt a a := fun h => first_asymm h h
  have hfbb : ¬ first gt b b := fun h => first_asymm h h
  have hfba := first_asymm hf
  have da : diff H o part gt e a = (if (gt a).2 = part b then 0 else H.ew e) - (if part a = part b then 0 else H.ew e) := by
    unfold diff
    rw [term_two ho hpins (x := (gt a).2) (y := part b) (by simp [Assign.put]) (by simp [Assign.put, Ne.symm hab, pre, hfba]),
      term_two ho hpins (x := part a) (y := part b) (by simp [pre, hfaa]) (by simp [pre, hfba])]
  have db : diff H o part gt e b = (if (gt a).2 = (gt b).2 then 0 else H.ew e) - (if (gt a).2 = part b then 0 else H.ew e) := by
    unfold diff
    rw [term_two ho hpins (x := (gt a).2) (y := (gt b).2) (by simp [Assign.put, hab, pre, hf]) (by simp [Assign.put]),
      term_two ho hpins (x := (gt a).2) (y := part b) (by simp [pre, hf]) (by simp [pre, hfbb])]
  have t1 := tot_two v a (part a) (gt a).2 (part b) (H.ew e)
  rw [← da] at t1
  have t2 := tot_two v b (part b) (gt b).2 (gt a).2 (H.ew e)
  rw [show (if (gt b).2 = (gt a).2 then (0 : Int) else H.ew e) - (if part b = (gt a).2 then 0 else H.ew e) = diff H o part gt e b by
    rw [db]; simp only [eq_comm]] at t2
  have t1' : (if v = a ∧ part a ≠ (gt a).2 then diff H o part gt e a else 0) = if v = a ∧ part v ≠ (gt v).2 then diff H o part gt e v else 0 := by
    by_cases h : v = a
    · rw [h]
    · rw [if_neg (fun hh => h hh.1), if_neg (fun hh => h hh.1)]
  have t2' : (if v = b ∧ part b ≠ (gt b).2 then diff H o part gt e b else 0) = if v = b ∧ part v ≠ (gt v).2 then diff H o part gt e v else 0 := by
    by_cases h : v = b
    · rw [h]
    · rw [if_neg (fun hh => h hh.1), if_neg (fun hh => h hh.1)]
  rw [t1, t2, t1', t2']
  simp only [hmem]
  by_cases hva : v = a
  · subst hva; simp [hab]
  · by_cases hvb : v = b
    · subst hvb; simp [Ne.symm hab]
    · simp [hva, hvb]

/-! ### All hyperedges -/

variable {σ : Type} {C : ConInfo σ} {H : HG} {o : Metrics.Obj} {k : Nat}

theorem burn_spec {con : σ} {part : Nat → Nat} {gt : GT} {e : Nat} {l : List (Nat × Int)} (hn : (H.pins e).Nodup)
    (hpc : ∀ b < k, C.pinCount con e b = H.pinsIn (fun u => some (part u)) e b) (hk : ∀ v ∈ H.pins e, part v < k ∧ (gt v).2 < k)
    (ho : o = .soed → (H.pins e).length ≠ 2) (h : Burn C H o con part gt e l) (v : Nat) :
    tot v l = if v ∈ H.pins e ∧ part v ≠ (gt v).2 then diff H o part gt e v else 0 := by
  unfold Burn at h
  by_cases h2 : (H.pins e).length = 2
  · rw [if_pos h2] at h
    rw [h]
    exact twoPins_spec (fun hs => ho hs h2) hn h2 v
  · rw [if_neg h2] at h
    obtain ⟨so, hso, rfl⟩ := h
    obtain ⟨p1, p2⟩ := sorted_spec hso (hn.filter _)
    have hmem : ∀ u, u ∈ so ↔ u ∈ H.pins e ∧ part u ≠ (gt u).2 := fun u => by rw [p1.mem_iff, List.mem_filter]; simp
    rw [scan_spec hn so [] _ (fun b hb => by rw [hpc b hb]; rfl) (by simpa using p1.nodup_iff.2 (hn.filter _)) (by simpa using p2)
      (fun v hv => ⟨((hmem v).1 hv).1, (hk v ((hmem v).1 hv).1).1, (hk v ((hmem v).1 hv).1).2, ((hmem v).1 hv).2⟩) (fun u hu hm => by simpa using (hmem u).2 ⟨hu, hm⟩) v]
    by_cases hv : v ∈ so
    · rw [if_pos hv, if_pos ((hmem v).1 hv)]
    · rw [if_neg hv, if_neg (fun hh => hv ((hmem v).2 hh))]

theorem burn_det {con con' : σ} {part : Nat → Nat} {gt : GT} {e : Nat} {l l' : List (Nat × Int)} (hn : (H.pins e).Nodup)
    (hpc : ∀ b < k, C.pinCount con e b = C.pinCount con' e b) (hk : ∀ v ∈ H.pins e, part v < k ∧ (gt v).2 < k)
    (h : Burn C H o con part gt e l) (h' : Burn C H o con' part gt e l') : l = l' := by
  unfold Burn at h h'
  by_cases h2 : (H.pins e).length = 2
  · rw [if_pos h2] at h h'
    rw [h, h']
  · rw [if_neg h2] at h h'
    obtain ⟨so, hso, rfl⟩ := h
    obtain ⟨so', hso', rfl⟩ := h'
    have := sorted_uniq (hn.filter _) hso hso'
    subst this
    obtain ⟨p1, _⟩ := sorted_spec hso (hn.filter _)
    exact scan_congr so _ _ hpc (fun v hv => hk v (List.mem_filter.1 (p1.mem_iff.1 hv)).1)

theorem burn_exists (con : σ) (part : Nat → Nat) (gt : GT) {e : Nat} (hn : (H.pins e).Nodup) : ∃ l, Burn C H o con part gt e l := by
  unfold Burn
  by_cases h2 : (H.pins e).length = 2
  · exact ⟨_, by rw [if_pos h2]⟩
  · obtain ⟨so, hso⟩ := sorted_exists (gt := gt) _ (hn.filter (fun v => decide (part v ≠ (gt v).2)))
    exact ⟨_, by rw [if_neg h2]; exact ⟨so, hso, rfl⟩⟩

/-- The afterburner gain of an active node is the change of the objective when it is moved after the nodes that precede it. -/
theorem afterburn_spec (hw : H.WF) {con : σ} {part : Nat → Nat} {gt : GT} {act : List Nat} {aft : Nat → Int}
    (hpc : ∀ e ∈ H.edges, ∀ b < k, C.pinCount con e b = H.pinsIn (fun u => some (part u)) e b) (hk : ∀ v ∈ H.nodes, part v < k ∧ (gt v).2 < k)
    (ho : o = .soed → ∀ e ∈ H.edges, (H.pins e).length ≠ 2) (hact : ∀ v ∈ act, v ∈ H.nodes) (h : Afterburn C H o con part gt act aft)
    {v : Nat} (hv : v ∈ act) (hne : part v ≠ (gt v).2) :
    aft v = H.objective ((pre part gt v).put v (gt v).2) o - H.objective (pre part gt v) o := by
  obtain ⟨es, adds, ops, h1, h2, h3, h4, rfl⟩ := h
  have hes : ∀ e ∈ es, e ∈ H.edges := by
    intro e he
    obtain ⟨u, hu, hi⟩ := (h2 e).1 he
    exact ((hw.inc_iff u (hact u hu) e).1 hi).1
  rw [fold_tot, tot_perm h4, tot_flatMap, Int.zero_add, Rollback.objective_terms, Rollback.objective_terms, ← Rollback.sum_sub_map]
  have hvn := hact v hv
  have e1 : es.map (fun e => tot v (adds e)) = es.map (fun e => if v ∈ H.pins e then diff H o part gt e v else 0) := by
    apply List.map_congr_left
    intro e he
    have heE := hes e he
    rw [burn_spec (k := k) (hw.pins_nodup e heE) (hpc e heE) (fun u hu => hk u (hw.pins_mem e heE u hu)) (fun hs => ho hs e heE) (h3 e he) v]
    by_cases hm : v ∈ H.pins e
    · rw [if_pos ⟨hm, hne⟩, if_pos hm]
    · rw [if_neg (fun hh => hm hh.1), if_neg hm]
  have e2 : H.edges.map (fun e => H.term ((pre part gt v).put v (gt v).2) e o - H.term (pre part gt v) e o) =
      H.edges.map (fun e => if v ∈ H.pins e then diff H o part gt e v else 0) := by
    apply List.map_congr_left
    intro e _
    by_cases hm : v ∈ H.pins e
    · rw [if_pos hm]; rfl
    · rw [if_neg hm]
      rw [HG.term_congr (Φ := (pre part gt v).put v (gt v).2) (Ψ := pre part gt v) (fun u hu => by
        
        have hne' : u ≠ v := fun hh => hm (hh ▸ hu)
        unfold Assign.put; rw [if_neg hne']) o]
      ring
  rw [e1, e2]
  apply Rollback.sum_subset h1 hw.edges_nodup hes
  intro e he hn
  rw [if_neg]
  intro hm
  exact hn ((h2 e).2 ⟨v, hv, (hw.inc_iff v hvn e).2 ⟨he, hm⟩⟩)

theorem afterburn_det (hw : H.WF) {con con' : σ} {part : Nat → Nat} {gt : GT} {act : List Nat} {aft aft' : Nat → Int}
    (hpc : ∀ e ∈ H.edges, ∀ b < k, C.pinCount con e b = C.pinCount con' e b) (hk : ∀ v ∈ H.nodes, part v < k ∧ (gt v).2 < k)
    (hact : ∀ v ∈ act, v ∈ H.nodes) (h : Afterburn C H o con part gt act aft) (h' : Afterburn C H o con' part gt act aft') : aft = aft' := by
  obtain ⟨es, adds, ops, h1, h2, h3, h4, rfl⟩ := h
  obtain ⟨es', adds', ops', h1', h2', h3', h4', rfl⟩ := h'
  have hes : ∀ e ∈ es, e ∈ H.edges := by
    intro e he
    obtain ⟨u, hu, hi⟩ := (h2 e).1 he
    exact ((hw.inc_iff u (hact u hu) e).1 hi).1
  have hp : es.Perm es' := (List.perm_ext_iff_of_nodup h1 h1').2 (fun e => by rw [h2, h2'])
  funext v
  rw [fold_tot, fold_tot, tot_perm h4, tot_perm h4', tot_flatMap, tot_flatMap, ← (hp.map _).sum_eq]
  congr 1
  congr 1
  apply List.map_congr_left
  intro e he
  have heE := hes e he
  rw [burn_det (hw.pins_nodup e heE) (hpc e heE) (fun u hu => hk u (hw.pins_mem e heE u hu)) (h3 e he) (h3' e (hp.mem_iff.1 he))]

theorem afterburn_exists (hw : H.WF) (con : σ) (part : Nat → Nat) (gt : GT) {act : List Nat} (hact : ∀ v ∈ act, v ∈ H.nodes) :
    ∃ aft, Afterburn C H o con part gt act aft := by
  have hex : ∀ e, ∃ l, e ∈ H.edges → Burn C H o con part gt e l := by
    intro e
    by_cases he : e ∈ H.edges
    · obtain ⟨l, hl⟩ := burn_exists (C := C) (o := o) con part gt (hw.pins_nodup e he)
      exact ⟨l, fun _ => hl⟩
    · exact ⟨[], fun h => absurd h he⟩
  choose adds hadds using hex
  refine ⟨_, H.edges.filter (fun e => decide (∃ v ∈ act, e ∈ H.inc v)), adds, _, hw.edges_nodup.filter _, fun e => ?_,
    fun e he => hadds e (List.mem_filter.1 he).1, List.Perm.refl _, rfl⟩
  rw [List.mem_filter, decide_eq_true_iff]
  constructor
  · rintro ⟨_, h⟩; exact h
  · rintro ⟨v, hv, hi⟩; exact ⟨((hw.inc_iff v (hact v hv) e).1 hi).1, v, hv, hi⟩

end Jet
end Verif
