import Verif.Lemmas.Contract1
/-! Lemmas about stage 3 of the contraction (parallel net detection). -/
namespace Verif
open SMap (wr)
open Contract

section detect
variable (st : EdgeSt) (key : Nat → List Nat) (h : List Nat → Nat)

/-- the entries of a bucket refer to contracted hyperedges with key `key` -/
def BucketOk (ls : List CInfo) : Prop :=
  (∀ r ∈ ls, r.hash = h (key r.he)) ∧ ls.Pairwise (fun a b => a.hash ≤ b.hash)

theorem mergeLoop_spec (weight : Nat → Int) (lhs : CInfo) (hl : lhs.hash = h (key lhs.he)) :
    ∀ (rs : List CInfo) (w : Int) (valid : Nat → Nat), BucketOk key h rs →
    (∀ r ∈ rs, lhs.hash ≤ r.hash) →
    (∀ r ∈ rs, isParallel st lhs.he r.he = decide (key lhs.he = key r.he)) →
    mergeLoop st weight lhs w valid rs =
      (rs.map (fun r => if r.valid && decide (key r.he = key lhs.he) then { r with valid := false } else r),
       w + ((rs.filter (fun r => r.valid && decide (key r.he = key lhs.he))).map (fun r => weight r.he)).sum,
       fun x => if x ∈ (rs.filter (fun r => r.valid && decide (key r.he = key lhs.he))).map CInfo.he then 0
         else valid x) := by
  intro rs
  induction rs with
  | nil => intro w valid _ _ _; simp [mergeLoop]
  | cons r rs ih =>
    intro w valid hb hle hp
    have hb' : BucketOk key h rs :=
      ⟨fun x hx => hb.1 x (by simp [hx]), (List.pairwise_cons.1 hb.2).2⟩
    have hle' : ∀ x ∈ rs, lhs.hash ≤ x.hash := fun x hx => hle x (by simp [hx])
    have hp' : ∀ x ∈ rs, isParallel st lhs.he x.he = decide (key lhs.he = key x.he) :=
      fun x hx => hp x (by simp [hx])
    have hrh := hb.1 r (by simp)
    have hrp := hp r (by simp)
    unfold mergeLoop
    by_cases hc : (r.valid && decide (key r.he = key lhs.he)) = true
    · have hc' := hc
      simp only [Bool.and_eq_true, decide_eq_true_eq] at hc'
      have hcond : (r.valid && decide (lhs.hash = r.hash) && isParallel st lhs.he r.he) = true := by
        rw [hrp, hl, hrh, hc'.2, hc'.1]; simp
      rw [if_pos hcond, ih _ _ hb' hle' hp']
      simp only [List.map_cons, List.filter_cons, hc, if_true, List.sum_cons]
      refine Prod.ext rfl (Prod.ext (by simp only; omega) ?_)
      funext x
      show (if x ∈ List.map CInfo.he (List.filter (fun r => r.valid && decide (key r.he = key lhs.he)) rs) then 0
        else wr valid r.he 0 x) =
        if x ∈ r.he :: List.map CInfo.he (List.filter (fun r => r.valid && decide (key r.he = key lhs.he)) rs) then 0
        else valid x
      by_cases hx : x = r.he
      · rw [if_pos (c := x ∈ r.he :: _) (by simp [hx]), hx, wr_same]
        split <;> rfl
      · rw [wr_other _ _ hx]
        simp only [List.mem_cons, hx, false_or]
    · have hcond : ¬ (r.valid && decide (lhs.hash = r.hash) && isParallel st lhs.he r.he) = true := by
        intro hcc
        apply hc
        simp only [Bool.and_eq_true, decide_eq_true_eq] at hcc ⊢
        rw [hrp] at hcc
        exact ⟨hcc.1.1, (by simpa using hcc.2 : key lhs.he = key r.he).symm⟩
      rw [if_neg hcond]
      by_cases hh : lhs.hash ≠ r.hash
      · rw [if_pos hh]
        have hall : ∀ x ∈ r :: rs, (x.valid && decide (key x.he = key lhs.he)) = false := by
          intro x hx
          have hxh := hb.1 x hx
          have hle1 := hle r (by simp)
          have : r.hash ≤ x.hash := by
            rcases List.mem_cons.1 hx with h1 | h1
            · rw [h1]
            · exact (List.pairwise_cons.1 hb.2).1 x h1
          have hk : key x.he ≠ key lhs.he := by
            intro hk
            rw [hk, ← hl] at hxh
            omega
          simp [hk]
        have hf : (r :: rs).filter (fun r => r.valid && decide (key r.he = key lhs.he)) = [] := by
          rw [List.filter_eq_nil_iff]
          intro x hx
          simpa using hall x hx
        rw [hf]
        refine Prod.ext ?_ (Prod.ext (by simp) (by simp))
        simp only
        symm
        conv => rhs; rw [← List.map_id (r :: rs)]
        apply List.map_congr_left
        intro x hx
        rw [if_neg (by rw [hall x hx]; simp)]
        rfl
      · rw [if_neg hh, ih _ _ hb' hle' hp']
        have hc0 : (r.valid && decide (key r.he = key lhs.he)) = false := by simpa using hc
        simp only [List.map_cons, List.filter_cons, hc0]
        simp

/-- ids of the entries that are still valid -/
def vals (ls : List CInfo) : List Nat := (ls.filter CInfo.valid).map CInfo.he

theorem vals_map (k : List Nat) (ls : List CInfo) :
    vals (ls.map (fun r => if r.valid && decide (key r.he = k) then { r with valid := false } else r)) =
      (vals ls).filter (fun x => decide (key x ≠ k)) := by
  unfold vals
  induction ls with
  | nil => rfl
  | cons r ls ih =>
    rw [List.map_cons]
    by_cases hv : r.valid = true
    · by_cases hk : key r.he = k
      · simp only [hv, hk, decide_true, Bool.and_self, if_true, List.filter_cons, List.map_cons]
        simpa [hk] using ih
      · simp only [hv, hk, decide_false, Bool.and_false, List.filter_cons, List.map_cons]
        simpa [hv, hk] using ih
    · simp only [hv, Bool.false_and, List.filter_cons, Bool.not_eq_true] at ih ⊢
      simpa [hv] using ih

theorem filter_valid_map (k : List Nat) (ls : List CInfo) :
    ((ls.filter (fun r => r.valid && decide (key r.he = k))).map CInfo.he) =
      (vals ls).filter (fun x => decide (key x = k)) := by
  unfold vals
  rw [List.filter_map, List.filter_filter]
  congr 1
  apply List.filter_congr
  intro r _
  simp [Bool.and_comm]

theorem find_filter_ne {V : List Nat} {k k' : List Nat} (hne : k' ≠ k) :
    (V.filter (fun x => decide (key x ≠ k))).find? (fun y => decide (key y = k')) =
      V.find? (fun y => decide (key y = k')) := by
  induction V with
  | nil => rfl
  | cons a V ih =>
    by_cases ha : key a = k
    · rw [List.filter_cons_of_neg (by simp [ha]), ih, List.find?_cons_of_neg]
      simp [ha]; exact fun h => hne h.symm
    · rw [List.filter_cons_of_pos (by simp [ha])]
      by_cases hk : key a = k'
      · rw [List.find?_cons_of_pos (by simp [hk]), List.find?_cons_of_pos (by simp [hk])]
      · rw [List.find?_cons_of_neg (by simp [hk]), List.find?_cons_of_neg (by simp [hk]), ih]

theorem filter_filter_ne {V : List Nat} {k k' : List Nat} (hne : k' ≠ k) :
    (V.filter (fun x => decide (key x ≠ k))).filter (fun y => decide (key y = k')) =
      V.filter (fun y => decide (key y = k')) := by
  rw [List.filter_filter]
  apply List.filter_congr
  intro x _
  by_cases h1 : key x = k'
  · simp [h1, hne]
  · simp [h1]

theorem detectLoop_spec : ∀ (fuel : Nat) (ls : List CInfo) (weight : Nat → Int) (valid : Nat → Nat),
    ls.length ≤ fuel → BucketOk key h ls → (ls.map CInfo.he).Nodup →
    (∀ a ∈ ls, ∀ b ∈ ls, isParallel st a.he b.he = decide (key a.he = key b.he)) →
    ∀ x,
      ((detectLoop st fuel weight valid ls).2 x =
        if x ∈ vals ls ∧ (vals ls).find? (fun y => decide (key y = key x)) ≠ some x then 0 else valid x) ∧
      ((detectLoop st fuel weight valid ls).1 x =
        if x ∈ vals ls ∧ (vals ls).find? (fun y => decide (key y = key x)) = some x then
          (((vals ls).filter (fun y => decide (key y = key x))).map weight).sum else weight x) := by
  intro fuel
  induction fuel with
  | zero =>
    intro ls weight valid hlen _ _ _ x
    have : ls = [] := by cases ls <;> simp_all
    subst this
    simp [detectLoop, vals]
  | succ fuel ih =>
    intro ls weight valid hlen hb hnd hp x
    cases ls with
    | nil => simp [detectLoop, vals]
    | cons l ls =>
      have hb' : BucketOk key h ls :=
        ⟨fun x hx => hb.1 x (by simp [hx]), (List.pairwise_cons.1 hb.2).2⟩
      have hnd' := (List.nodup_cons.1 (by simpa using hnd : (l.he :: ls.map CInfo.he).Nodup))
      have hvsub : ∀ y ∈ vals ls, y ∈ ls.map CInfo.he := by
        intro y hy
        unfold vals at hy
        rw [List.mem_map] at hy ⊢
        obtain ⟨r, hr, e⟩ := hy
        exact ⟨r, (List.mem_filter.1 hr).1, e⟩
      have hlv : l.he ∉ vals ls := fun hh => hnd'.1 (hvsub _ hh)
      unfold detectLoop
      by_cases hv : l.valid = true
      · rw [if_pos hv]
        have hms := mergeLoop_spec st key h weight l (hb.1 l (by simp)) ls (weight l.he) valid hb'
          (fun r hr => (List.pairwise_cons.1 hb.2).1 r hr) (fun r hr => hp l (by simp) r (by simp [hr]))
        rw [hms]
        simp only
        have hV : vals (l :: ls) = l.he :: vals ls := by simp [vals, hv]
        rw [hV]
        have hhe : ((ls.map (fun r => if r.valid && decide (key r.he = key l.he) then { r with valid := false } else r)).map
            CInfo.he) = ls.map CInfo.he := by
          rw [List.map_map]
          apply List.map_congr_left
          intro r _
          simp only [Function.comp]
          split <;> rfl
        have hhash : ∀ (r : CInfo), (if r.valid && decide (key r.he = key l.he) then { r with valid := false } else r).hash
            = r.hash := by intro r; split <;> rfl
        have hhe1 : ∀ (r : CInfo), (if r.valid && decide (key r.he = key l.he) then { r with valid := false } else r).he
            = r.he := by intro r; split <;> rfl
        have IH := ih (ls.map (fun r => if r.valid && decide (key r.he = key l.he) then { r with valid := false } else r))
          (wr weight l.he (weight l.he + ((ls.filter (fun r => r.valid && decide (key r.he = key l.he))).map
            (fun r => weight r.he)).sum))
          (fun x => if x ∈ (ls.filter (fun r => r.valid && decide (key r.he = key l.he))).map CInfo.he then 0
            else valid x)
          (by simpa using hlen)
          (by
            constructor
            · intro r hr
              obtain ⟨r0, hr0, rfl⟩ := List.mem_map.1 hr
              rw [hhash, hhe1]
              exact hb'.1 r0 hr0
            · rw [List.pairwise_map]
              apply hb'.2.imp
              intro a b hab
              rw [hhash, hhash]; exact hab)
          (by rw [hhe]; exact hnd'.2)
          (by
            intro a ha b hbb
            obtain ⟨a0, ha0, rfl⟩ := List.mem_map.1 ha
            obtain ⟨b0, hb0, rfl⟩ := List.mem_map.1 hbb
            rw [hhe1, hhe1]
            exact hp a0 (by simp [ha0]) b0 (by simp [hb0]))
          x
        rw [vals_map, filter_valid_map] at IH
        obtain ⟨IH1, IH2⟩ := IH
        have hsum : ((ls.filter (fun r => r.valid && decide (key r.he = key l.he))).map (fun r => weight r.he)).sum
            = (((vals ls).filter (fun y => decide (key y = key l.he))).map weight).sum := by
          rw [← filter_valid_map, List.map_map]; rfl
        rw [hsum] at IH1 IH2
        rw [filter_valid_map, hsum]
        constructor
        · rw [IH1]
          by_cases hxl : x = l.he
          · rw [if_neg (by intro hh; rw [hxl] at hh; exact hlv (List.mem_filter.1 hh.1).1)]
            rw [if_neg (by intro hh; rw [hxl] at hh; exact hlv (List.mem_filter.1 hh).1)]
            rw [if_neg]
            rintro ⟨_, h2⟩
            apply h2
            rw [List.find?_cons_of_pos (by simp [hxl]), hxl]
          · by_cases hk : key x = key l.he
            · rw [if_neg (by intro hh; have := (List.mem_filter.1 hh.1).2; simp [hk] at this)]
              rw [List.find?_cons_of_pos (by simp [hk])]
              by_cases hxv : x ∈ vals ls
              · rw [if_pos (List.mem_filter.2 ⟨hxv, by simp [hk]⟩), if_pos]
                exact ⟨by simp [hxv], fun hh => hxl (Option.some.inj hh).symm⟩
              · rw [if_neg (fun hh => hxv (List.mem_filter.1 hh).1), if_neg]
                rintro ⟨h1, _⟩
                rcases List.mem_cons.1 h1 with h1 | h1
                · exact hxl h1
                · exact hxv h1
            · rw [find_filter_ne key hk, List.find?_cons_of_neg (by simp; exact fun e => hk e.symm)]
              rw [if_neg (c := x ∈ List.filter (fun x => decide (key x = key l.he)) (vals ls))
                (fun hh => hk (by simpa using (List.mem_filter.1 hh).2))]
              congr 1
              simp [hxl, hk]
        · rw [IH2]
          by_cases hxl : x = l.he
          · rw [if_neg (by intro hh; rw [hxl] at hh; exact hlv (List.mem_filter.1 hh.1).1)]
            rw [if_pos ⟨by simp [hxl], by rw [List.find?_cons_of_pos (by simp [hxl]), hxl]⟩]
            rw [hxl, wr_same, List.filter_cons_of_pos (by simp), List.map_cons, List.sum_cons]
          · rw [wr_other _ _ hxl]
            by_cases hk : key x = key l.he
            · rw [if_neg (by intro hh; have := (List.mem_filter.1 hh.1).2; simp [hk] at this)]
              rw [List.find?_cons_of_pos (by simp [hk]), if_neg]
              rintro ⟨_, hh⟩
              exact hxl (Option.some.inj hh).symm
            · rw [find_filter_ne key hk, List.find?_cons_of_neg (by simp; exact fun e => hk e.symm),
                filter_filter_ne key hk]
              rw [List.filter_cons_of_neg (by simp; exact fun e => hk e.symm)]
              have hw : ((vals ls).filter (fun y => decide (key y = key x))).map
                  (wr weight l.he (weight l.he + (((vals ls).filter (fun y => decide (key y = key l.he))).map weight).sum))
                  = ((vals ls).filter (fun y => decide (key y = key x))).map weight := by
                apply List.map_congr_left
                intro y hy
                apply wr_other
                intro e
                rw [e] at hy
                exact hlv (List.mem_filter.1 hy).1
              rw [hw]
              simp [hxl, hk]
      · rw [if_neg hv]
        have hV : vals (l :: ls) = vals ls := by simp [vals, hv]
        rw [hV]
        exact ih ls weight valid (by simpa using hlen) hb' hnd'.2
          (fun a ha b hbb => hp a (by simp [ha]) b (by simp [hbb])) x

end detect

theorem find_pairwise {α : Type} {R : α → α → Prop} {p : α → Bool} {l : List α} (hp : l.Pairwise R) {z x : α}
    (hz : l.find? p = some z) (hx : x ∈ l) (hpx : p x = true) : z = x ∨ R z x := by
  induction l with
  | nil => simp at hx
  | cons a l ih =>
    have h' := List.pairwise_cons.1 hp
    by_cases ha : p a = true
    · rw [List.find?_cons_of_pos ha] at hz
      have hza : a = z := Option.some.inj hz
      subst hza
      rcases List.mem_cons.1 hx with h1 | h1
      · exact Or.inl h1.symm
      · exact Or.inr (h'.1 x h1)
    · rw [List.find?_cons_of_neg ha] at hz
      rcases List.mem_cons.1 hx with h1 | h1
      · rw [h1] at hpx; exact absurd hpx ha
      · exact ih h'.2 hz h1

/-! ### The result of stage 3 -/

theorem CInfo.le_trans (a b c : CInfo) : CInfo.le a b = true → CInfo.le b c = true → CInfo.le a c = true := by
  simp only [CInfo.le, Bool.or_eq_true, Bool.and_eq_true, decide_eq_true_eq]
  omega

theorem CInfo.le_total (a b : CInfo) : (CInfo.le a b || CInfo.le b a) = true := by
  simp only [CInfo.le, Bool.or_eq_true, Bool.and_eq_true, decide_eq_true_eq]
  omega

section stage3
variable {H : SHG} {cid : Nat → Nat} {st : EdgeSt} {lb : Nat} {order : List Nat}

theorem isParallel_iff (hd : ∀ e < H.m, EdgeDone H cid e st) {a b : Nat} (ha : a < H.m) (hb : b < H.m)
    (hca : cand H cid a = true) (hcb : cand H cid b = true) :
    isParallel st a b = decide (cpins H cid a = cpins H cid b) := by
  have hea : H.heEnabled a = true := by unfold cand at hca; simp only [Bool.and_eq_true] at hca; exact hca.1
  have heb : H.heEnabled b = true := by unfold cand at hcb; simp only [Bool.and_eq_true] at hcb; exact hcb.1
  have da := hd a ha
  have db := hd b hb
  rw [Bool.eq_iff_iff]
  unfold isParallel
  simp only [Bool.and_eq_true, decide_eq_true_eq, List.all_eq_true, List.mem_range]
  rw [da.size hea, db.size heb, da.first hea, db.first heb]
  constructor
  · rintro ⟨h1, h2⟩
    rw [← da.arr hea, ← db.arr heb, ← h1]
    unfold readSeg
    apply List.map_congr_left
    intro i hi
    exact h2 i (List.mem_range.1 hi)
  · intro hk
    refine ⟨by rw [hk], ?_⟩
    intro i hi
    have h1 := readSeg_getD (a := st.arr) (s := H.heFirst a) hi
    have h2 := readSeg_getD (a := st.arr) (s := H.heFirst b) (hk ▸ hi)
    rw [da.arr hea] at h1
    rw [db.arr heb] at h2
    rw [← h1, ← h2, hk]

/-- candidates in bucket `b` -/
def inBucket (H : SHG) (cid : Nat → Nat) (lb b : Nat) (e : Nat) : Bool :=
  cand H cid e && decide (bucketOf lb (cpins H cid e) = b)

theorem detectBucket_spec (hd : ∀ e < H.m, EdgeDone H cid e st) (ho : order.Perm (List.range H.m))
    (hbk : ∀ b, st.bucket b = (order.filter (inBucket H cid lb b)).map (infoOf H cid))
    (acc : (Nat → Int) × (Nat → Nat)) (b x : Nat) :
    ((detectBucket st acc b).2 x =
      if (x < H.m ∧ inBucket H cid lb b x = true) ∧
          ¬ (∀ y < H.m, cand H cid y = true → cpins H cid y = cpins H cid x → x ≤ y) then 0 else acc.2 x) ∧
    ((detectBucket st acc b).1 x =
      if (x < H.m ∧ inBucket H cid lb b x = true) ∧
          (∀ y < H.m, cand H cid y = true → cpins H cid y = cpins H cid x → x ≤ y) then
        (((List.range H.m).filter (fun y => cand H cid y && decide (cpins H cid y = cpins H cid x))).map acc.1).sum
      else acc.1 x) := by
  have hperm : ((st.bucket b).mergeSort CInfo.le).Perm (st.bucket b) := List.mergeSort_perm _ _
  have hsorted : ((st.bucket b).mergeSort CInfo.le).Pairwise (fun a b => CInfo.le a b = true) :=
    List.pairwise_mergeSort CInfo.le_trans CInfo.le_total _
  have hmem : ∀ r ∈ (st.bucket b).mergeSort CInfo.le, r.he < H.m ∧ inBucket H cid lb b r.he = true ∧
      r = infoOf H cid r.he := by
    intro r hr
    rw [hperm.mem_iff, hbk, List.mem_map] at hr
    obtain ⟨e, he, rfl⟩ := hr
    rw [List.mem_filter, ho.mem_iff, List.mem_range] at he
    exact ⟨he.1, he.2, rfl⟩
  have hcand : ∀ e, inBucket H cid lb b e = true → cand H cid e = true := by
    intro e he
    unfold inBucket at he
    simp only [Bool.and_eq_true] at he
    exact he.1
  have hhes : (((st.bucket b).mergeSort CInfo.le).map CInfo.he).Perm ((List.range H.m).filter (inBucket H cid lb b)) := by
    refine (hperm.map _).trans ?_
    rw [hbk, List.map_map]
    have : (CInfo.he ∘ infoOf H cid) = id := rfl
    rw [this, List.map_id]
    exact ho.filter _
  have hvals : vals ((st.bucket b).mergeSort CInfo.le) = ((st.bucket b).mergeSort CInfo.le).map CInfo.he := by
    unfold vals
    rw [List.filter_eq_self.2]
    intro r hr
    rw [(hmem r hr).2.2]; rfl
  have hV : ∀ y, y ∈ vals ((st.bucket b).mergeSort CInfo.le) ↔ y < H.m ∧ inBucket H cid lb b y = true := by
    intro y
    rw [hvals, hhes.mem_iff, List.mem_filter, List.mem_range]
  have hnd : (((st.bucket b).mergeSort CInfo.le).map CInfo.he).Nodup :=
    hhes.nodup_iff.2 (List.nodup_range.filter _)
  have key := detectLoop_spec st (cpins H cid) footprint ((st.bucket b).mergeSort CInfo.le).length
    ((st.bucket b).mergeSort CInfo.le) acc.1 acc.2 (Nat.le_refl _)
    ⟨fun r hr => by rw [(hmem r hr).2.2]; rfl, hsorted.imp (by
      intro a c hac
      unfold CInfo.le at hac
      simp only [Bool.or_eq_true, Bool.and_eq_true, decide_eq_true_eq] at hac
      omega)⟩ hnd
    (fun a ha c hc => isParallel_iff hd (hmem a ha).1 (hmem c hc).1 (hcand _ (hmem a ha).2.1)
      (hcand _ (hmem c hc).2.1)) x
  -- a hyperedge with the same contracted pins is in the same bucket
  have hsame : ∀ y < H.m, cand H cid y = true → inBucket H cid lb b x = true →
      cpins H cid y = cpins H cid x → inBucket H cid lb b y = true := by
    intro y _ hcy hx hk
    unfold inBucket at hx ⊢
    simp only [Bool.and_eq_true, decide_eq_true_eq] at hx ⊢
    exact ⟨hcy, hk ▸ hx.2⟩
  -- the first entry with the key of `x` is the one with the smallest id
  have hpw : (vals ((st.bucket b).mergeSort CInfo.le)).Pairwise
      (fun y z => cpins H cid y = cpins H cid z → y ≤ z) := by
    rw [hvals, List.pairwise_map]
    refine hsorted.imp_of_mem ?_
    intro r q hr hq hle hk
    have h1 := (hmem r hr).2.2
    have h2 := (hmem q hq).2.2
    have hh : r.hash = q.hash := by rw [h1, h2]; simp only [infoOf, hk]
    have hs : r.size = q.size := by rw [h1, h2]; simp only [infoOf, hk]
    unfold CInfo.le at hle
    simp only [Bool.or_eq_true, Bool.and_eq_true, decide_eq_true_eq] at hle
    omega
  have hfind : (x < H.m ∧ inBucket H cid lb b x = true) →
      ((vals ((st.bucket b).mergeSort CInfo.le)).find? (fun y => decide (cpins H cid y = cpins H cid x)) = some x ↔
        ∀ y < H.m, cand H cid y = true → cpins H cid y = cpins H cid x → x ≤ y) := by
    intro hx
    constructor
    · intro hf y hy hcy hk
      rcases find_pairwise hpw hf ((hV y).2 ⟨hy, hsame y hy hcy hx.2 hk⟩) (by simp [hk]) with h1 | h1
      · exact Nat.le_of_eq h1
      · exact h1 hk.symm
    · intro hall
      have hxv : x ∈ vals ((st.bucket b).mergeSort CInfo.le) := (hV x).2 hx
      cases hf : (vals ((st.bucket b).mergeSort CInfo.le)).find? (fun y => decide (cpins H cid y = cpins H cid x)) with
      | none =>
        rw [List.find?_eq_none] at hf
        exact absurd (hf x hxv) (by simp)
      | some z =>
        have hz := List.find?_some hf
        have hzm := List.mem_of_find?_eq_some hf
        have hzk : cpins H cid z = cpins H cid x := by simpa using hz
        have h1 := hall z ((hV z).1 hzm).1 (hcand z ((hV z).1 hzm).2) hzk
        rcases find_pairwise hpw hf hxv (by simp) with h2 | h2
        · rw [h2]
        · have := h2 hzk
          rw [Nat.le_antisymm this h1]
  have hsum : (x < H.m ∧ inBucket H cid lb b x = true) →
      (((vals ((st.bucket b).mergeSort CInfo.le)).filter (fun y => decide (cpins H cid y = cpins H cid x))).map acc.1).sum =
      (((List.range H.m).filter (fun y => cand H cid y && decide (cpins H cid y = cpins H cid x))).map acc.1).sum := by
    intro hx
    apply List.Perm.sum_eq
    apply List.Perm.map
    rw [hvals]
    refine (hhes.filter _).trans ?_
    rw [List.filter_filter]
    apply List.Perm.of_eq
    apply List.filter_congr
    intro y hy
    rw [Bool.eq_iff_iff]
    simp only [Bool.and_eq_true, decide_eq_true_eq]
    constructor
    · rintro ⟨h1, h2⟩; exact ⟨hcand y h2, h1⟩
    · rintro ⟨h1, h2⟩; exact ⟨h2, hsame y (List.mem_range.1 hy) h1 hx.2 h2⟩
  unfold detectBucket
  simp only
  rw [key.1, key.2]
  by_cases hx : x < H.m ∧ inBucket H cid lb b x = true
  · have hf := hfind hx
    have hs := hsum hx
    have hxv := (hV x).2 hx
    by_cases hm : ∀ y < H.m, cand H cid y = true → cpins H cid y = cpins H cid x → x ≤ y
    · have hf' := hf.2 hm
      rw [if_neg (fun hh => hh.2 hf'), if_neg (fun hh => hh.2 hm), if_pos ⟨hxv, hf'⟩, if_pos ⟨hx, hm⟩, hs]
      exact ⟨rfl, rfl⟩
    · have hf' := mt hf.1 hm
      rw [if_pos ⟨hxv, hf'⟩, if_pos ⟨hx, hm⟩, if_neg (fun hh => hf' hh.2), if_neg (fun hh => hm hh.2)]
      exact ⟨rfl, rfl⟩
  · have hxv := mt (hV x).1 hx
    rw [if_neg (fun hh => hxv hh.1), if_neg (fun hh => hx hh.1), if_neg (fun hh => hxv hh.1),
      if_neg (fun hh => hx hh.1)]
    exact ⟨rfl, rfl⟩

/-- `e` is the smallest candidate with its contracted pins -/
def isRep (H : SHG) (cid : Nat → Nat) (e : Nat) : Prop :=
  e < H.m ∧ cand H cid e = true ∧ ∀ y < H.m, cand H cid y = true → cpins H cid y = cpins H cid e → e ≤ y

theorem detectAll_spec (hd : ∀ e < H.m, EdgeDone H cid e st) (ho : order.Perm (List.range H.m))
    (hbk : ∀ b, st.bucket b = (order.filter (inBucket H cid lb b)).map (infoOf H cid))
    {buckets : List Nat} (hbs : buckets.Perm (List.range (2 ^ lb))) {e : Nat} (he : e < H.m) :
    ((detectAll st buckets).2 e > 0 ↔ isRep H cid e) ∧ (detectAll st buckets).2 e ≤ 1 ∧
    (isRep H cid e → (detectAll st buckets).1 e =
      (((List.range H.m).filter (fun y => cand H cid y && decide (cpins H cid y = cpins H cid e))).map
        H.heWeight).sum) := by
  have hmemb : ∀ b, b ∈ buckets ↔ b < 2 ^ lb := fun b => by rw [hbs.mem_iff, List.mem_range]
  have hv0 := (hd e he).valid
  by_cases hc : cand H cid e = true
  · -- a candidate is handled by the step for its bucket
    have hb0 : bucketOf lb (cpins H cid e) ∈ buckets := (hmemb _).2 (bucketOf_lt _ _)
    have hin : inBucket H cid lb (bucketOf lb (cpins H cid e)) e = true := by simp [inBucket, hc]
    have hout : ∀ b, b ≠ bucketOf lb (cpins H cid e) → inBucket H cid lb b e = false := by
      intro b hb
      simp only [inBucket, Bool.and_eq_false_iff, decide_eq_false_iff_not]
      exact Or.inr (fun h => hb h.symm)
    have := foldl_local (detectBucket st)
      (fun b s => ∀ x < H.m, inBucket H cid lb b x = true → s.1 x = st.weight x ∧ s.2 x = st.valid x)
      (fun b s => ∀ x < H.m, inBucket H cid lb b x = true →
        (s.2 x = if ¬ (∀ y < H.m, cand H cid y = true → cpins H cid y = cpins H cid x → x ≤ y) then 0
          else st.valid x) ∧
        ((∀ y < H.m, cand H cid y = true → cpins H cid y = cpins H cid x → x ≤ y) → s.1 x =
          (((List.range H.m).filter (fun y => cand H cid y && decide (cpins H cid y = cpins H cid x))).map
            st.weight).sum))
      buckets (st.weight, st.valid) (hbs.nodup_iff.2 List.nodup_range)
      (by
        intro s b hb hP x hx hxb
        obtain ⟨h1, h2⟩ := detectBucket_spec hd ho hbk s b x
        have hPx := hP x hx hxb
        constructor
        · rw [h1, hPx.2]
          simp [hx, hxb]
        · intro hm
          rw [h2, if_pos ⟨⟨hx, hxb⟩, hm⟩]
          congr 1
          apply List.map_congr_left
          intro y hy
          rw [List.mem_filter, List.mem_range] at hy
          simp only [Bool.and_eq_true, decide_eq_true_eq] at hy
          refine (hP y hy.1 ?_).1
          unfold inBucket at hxb ⊢
          simp only [Bool.and_eq_true, decide_eq_true_eq] at hxb ⊢
          exact ⟨hy.2.1, hy.2.2 ▸ hxb.2⟩)
      (by
        intro s c d _ _ hne hP x hx hxd
        obtain ⟨h1, h2⟩ := detectBucket_spec hd ho hbk s c x
        have hxc : ¬ (inBucket H cid lb c x = true) := by
          unfold inBucket at hxd ⊢
          simp only [Bool.and_eq_true, decide_eq_true_eq] at hxd ⊢
          intro hh
          exact hne (hxd.2.symm.trans hh.2)
        rw [h1, h2, if_neg (fun hh => hxc hh.1.2), if_neg (fun hh => hxc hh.1.2)]
        exact hP x hx hxd)
      (by
        intro s c d _ _ hne hP x hx hxd
        obtain ⟨h1, h2⟩ := detectBucket_spec hd ho hbk s c x
        have hxc : ¬ (inBucket H cid lb c x = true) := by
          unfold inBucket at hxd ⊢
          simp only [Bool.and_eq_true, decide_eq_true_eq] at hxd ⊢
          intro hh
          exact hne (hxd.2.symm.trans hh.2)
        rw [if_neg (fun hh => hxc hh.1.2)] at h1 h2
        rw [h1, h2]
        exact hP x hx hxd)
      (by intros; exact ⟨rfl, rfl⟩)
      _ hb0 e he hin
    obtain ⟨h1, h2⟩ := this
    have hval : (detectAll st buckets).2 e = if ¬ (∀ y < H.m, cand H cid y = true → cpins H cid y = cpins H cid e → e ≤ y)
        then 0 else st.valid e := h1
    rw [hv0, if_pos hc] at hval
    refine ⟨?_, ?_, ?_⟩
    · rw [hval]
      constructor
      · intro h
        refine ⟨he, hc, ?_⟩
        by_contra hm
        rw [if_pos hm] at h
        omega
      · intro h
        rw [if_neg (not_not.2 h.2.2)]
        exact Nat.one_pos
    · rw [hval]; split <;> omega
    · intro h
      have h2' := h2 h.2.2
      refine Eq.trans h2' ?_
      congr 1
      apply List.map_congr_left
      intro y hy
      rw [List.mem_filter, List.mem_range] at hy
      simp only [Bool.and_eq_true, decide_eq_true_eq] at hy
      have hcy := hy.2.1
      unfold cand at hcy
      simp only [Bool.and_eq_true] at hcy
      exact (hd y hy.1).weight hcy.1
  · -- a non-candidate is never touched
    have hnot : ∀ b, inBucket H cid lb b e = false := by
      intro b; simp [inBucket, hc]
    have hfix : (detectAll st buckets).2 e = st.valid e := by
      unfold detectAll
      apply foldl_inv (detectBucket st) (fun s => s.2 e = st.valid e)
      · intro s c _ hs
        rw [(detectBucket_spec hd ho hbk s c e).1, if_neg (fun hh => by simp [hnot] at hh)]
        exact hs
      · rfl
    rw [hfix, hv0, if_neg hc]
    refine ⟨⟨fun h => absurd h (by omega), fun h => absurd h.2.1 hc⟩, by omega, fun h => absurd h.2.1 hc⟩

end stage3
end Verif
