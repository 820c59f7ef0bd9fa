import Verif.Lemmas.ConcurrentCache
/-!
# Gain cache initialisation and the meaning of the gain
-/
namespace Verif
open CSt

theorem HG.lam_add_le {H : HG} {Φ : Assign} {e b : Nat} :
    H.lam Φ e + H.pinsIn Φ e b ≤ (H.pins e).length + 1 := by
  unfold lam blocksOf pinsIn
  induction H.pins e with
  | nil => simp
  | cons a l ih =>
    have h1 : (List.filterMap Φ (a :: l)).toFinset.card ≤ (List.filterMap Φ l).toFinset.card + 1 := by
      cases h : Φ a with
      | none => rw [List.filterMap_cons_none h]; omega
      | some c =>
        rw [List.filterMap_cons_some h, List.toFinset_cons]; exact Finset.card_insert_le _ _
    rw [List.countP_cons, List.length_cons]
    by_cases hb : Φ a = some b
    · simp only [hb, decide_true, if_true]
      by_cases hm : b ∈ (List.filterMap Φ l)
      · have : (List.filterMap Φ (a :: l)).toFinset = (List.filterMap Φ l).toFinset := by
          rw [List.filterMap_cons_some hb, List.toFinset_cons, Finset.insert_eq_self, List.mem_toFinset]
          exact hm
        rw [this]; omega
      · have h0 : List.countP (fun v => decide (Φ v = some b)) l = 0 := by
          rw [List.countP_eq_zero]
          intro v hv
          have : Φ v ≠ some b := fun hh => hm (List.mem_filterMap.2 ⟨v, hv, hh⟩)
          simp [this]
        have h2 : (List.filterMap Φ l).toFinset.card ≤ l.length :=
          (List.toFinset_card_le _).trans (List.length_filterMap_le _ _)
        omega
    · simp only [hb, decide_false]
      simp only [Bool.false_eq_true, if_false]; omega

theorem foldl_add_blocks (l : List Nat) (hn : l.Nodup) (x : Nat → Int) : ∀ (f : Nat → Int) (b' : Nat),
    (l.foldl (fun f b => (fun b' => if b' = b then f b' + x b else f b')) f) b' =
      f b' + if b' ∈ l then x b' else 0 := by
  induction l with
  | nil => simp
  | cons a l ih =>
    intro f b'
    rw [List.nodup_cons] at hn
    rw [List.foldl_cons, ih hn.2]
    by_cases h : b' = a
    · subst h; simp [hn.1]
    · simp [h]

/-- Contribution of one net, in terms of multipliers. -/
theorem initEdge_eq (o : Metrics.Obj) {H : HG} {Φ : Assign} {e k from' : Nat} {cs : List Nat}
    {pc : Nat → Nat} (hf : from' < k) (hpc : ∀ b, b < k → pc b = H.pinsIn Φ e b) (hn : cs.Nodup)
    (hcs : ∀ b, b ∈ cs ↔ b < k ∧ 0 < H.pinsIn Φ e b) (hfrom : 0 < H.pinsIn Φ e from')
    (acc : Int × (Nat → Int)) :
    (initEdgeContribution o (H.pins e).length (H.lam Φ e) cs pc (H.ew e) from' acc).1 =
      acc.1 + H.ew e * penMult o (H.pins e).length (H.pinsIn Φ e from') ∧
    ∀ b, b < k →
      (initEdgeContribution o (H.pins e).length (H.lam Φ e) cs pc (H.ew e) from' acc).2 b =
      acc.2 b + H.ew e * benMult o (H.pins e).length (H.pinsIn Φ e b) := by
  have hle : ∀ b, H.pinsIn Φ e b ≤ (H.pins e).length := fun b => List.countP_le_length
  have hlam := fun b => HG.lam_add_le (H := H) (Φ := Φ) (e := e) (b := b)
  cases o with
  | km1 =>
    simp only [initEdgeContribution, penMult, benMult]
    refine ⟨?_, fun b hb => ?_⟩
    · rw [hpc from' hf]; split <;> simp
    · rw [foldl_add_blocks cs hn (fun _ => H.ew e)]; simp only [hcs b]
      by_cases h : 0 < H.pinsIn Φ e b
      · have : H.pinsIn Φ e b ≥ 1 := h
        simp [hb, h, this]
      · have : ¬ H.pinsIn Φ e b ≥ 1 := by omega
        simp [h, this]
  | cut =>
    simp only [initEdgeContribution, penMult, benMult]
    by_cases hc : (H.pins e).length > 1 ∧ H.lam Φ e ≤ 2
    · simp only [hc, and_self, if_true, and_true]
      refine ⟨?_, fun b hb => ?_⟩
      · rw [hpc from' hf]; split <;> simp
      · have hcong : cs.foldl (fun f b => if pc b = (H.pins e).length - 1 then
            (fun b' => if b' = b then f b' + H.ew e else f b') else f) acc.2 =
            cs.foldl (fun f b => (fun b' => if b' = b then f b' +
              (if pc b = (H.pins e).length - 1 then H.ew e else 0) else f b')) acc.2 := by
          congr 1
          funext f b
          split
          · rfl
          · funext b'; split <;> simp
        rw [hcong, foldl_add_blocks cs hn (fun b => if pc b = (H.pins e).length - 1 then H.ew e else 0)]
        simp only [hcs b, hpc b hb]
        by_cases h : H.pinsIn Φ e b = (H.pins e).length - 1
        · have : 0 < H.pinsIn Φ e b := by omega
          simp [hb, h, this]; intro; omega
        · simp [h]
    · simp only [hc, if_false]
      refine ⟨?_, fun b hb => ?_⟩
      · rw [if_neg]
        · simp
        · rintro ⟨h1, h2⟩
          have := hlam from'
          exact hc ⟨h2, by omega⟩
      · rw [if_neg]
        · simp
        · rintro ⟨h1, h2⟩
          have := hlam b
          exact hc ⟨h2, by omega⟩
  | soed =>
    simp only [initEdgeContribution, penMult, benMult]
    by_cases hc : (H.pins e).length > 1
    · simp only [hc, if_true]
      refine ⟨?_, fun b hb => ?_⟩
      · rw [hpc from' hf]; simp only [b2i, decide_true, if_true]; ring
      · rw [foldl_add_blocks cs hn (fun b => (1 + b2i (pc b = (H.pins e).length - 1)) * H.ew e)]
        simp only [hcs b, hpc b hb]
        by_cases h : 0 < H.pinsIn Φ e b
        · have : H.pinsIn Φ e b ≥ 1 := h
          simp only [hb, h, this, and_self, if_true, b2i, decide_eq_true_eq]; ring
        · have h1 : ¬ H.pinsIn Φ e b ≥ 1 := by omega
          have h2 : ¬ H.pinsIn Φ e b = (H.pins e).length - 1 := by omega
          simp only [h, h1, h2, and_false, if_false]; ring
    · simp [hc, b2i]

section
variable {σ : Type} {C : ConInfo σ} {H : HG} {m k mx : Nat}
open PHG

/-- Aggregation over a list of nets. -/
theorem initFold_eq {L : C.Lawful m k mx} (hw : H.WF) (hf : H.Fits m mx) {P : PHG σ} {Φ : Assign}
    (hS : Sim L H P Φ) (o : Metrics.Obj) {u from' : Nat} (hu : u ∈ H.nodes) (hp : Φ u = some from')
    (hk : from' < k) : ∀ (es : List Nat), (∀ e ∈ es, e ∈ H.inc u) → ∀ (acc : Int × (Nat → Int)),
    (es.foldl (fun acc e => initEdgeContribution o (H.pins e).length
      (C.connectivity P.con e) (C.connSet P.con e) (C.pinCount P.con e) (H.ew e) from' acc) acc).1 =
      acc.1 + (es.map (fun e => H.ew e * penMult o (H.pins e).length (H.pinsIn Φ e from'))).sum ∧
    ∀ b, b < k → (es.foldl (fun acc e => initEdgeContribution o (H.pins e).length
      (C.connectivity P.con e) (C.connSet P.con e) (C.pinCount P.con e) (H.ew e) from' acc) acc).2 b =
      acc.2 b + (es.map (fun e => H.ew e * benMult o (H.pins e).length (H.pinsIn Φ e b))).sum := by
  intro es
  induction es with
  | nil => intro _ acc; simp
  | cons e es ih =>
    intro hes acc
    obtain ⟨heE, hpin⟩ := (hw.inc_iff u hu e).1 (hes e (by simp))
    obtain ⟨T, hR, hT⟩ := hS.con
    have hem := (hf e heE).1
    have hpc : ∀ b, b < k → C.pinCount P.con e b = H.pinsIn Φ e b := fun b hb => by
      rw [L.pinCount_eq hR hem hb, hT e heE b hb]
    have hcs : ∀ b, b ∈ C.connSet P.con e ↔ b < k ∧ 0 < H.pinsIn Φ e b := fun b => by
      rw [L.connSet_mem hR hem b]
      constructor
      · rintro ⟨h1, h2⟩; exact ⟨h1, hT e heE b h1 ▸ h2⟩
      · rintro ⟨h1, h2⟩; exact ⟨h1, (hT e heE b h1).symm ▸ h2⟩
    have hfrom : 0 < H.pinsIn Φ e from' := by
      unfold HG.pinsIn; rw [List.countP_pos_iff]; exact ⟨u, hpin, by simp [hp]⟩
    have hconn := (hS.connSet_lam hf heE).1
    have h1 := initEdge_eq o hk hpc (L.connSet_nodup hR hem) hcs hfrom acc
    rw [List.foldl_cons, hconn]
    obtain ⟨i1, i2⟩ := ih (fun e he => hes e (by simp [he])) (initEdgeContribution o (H.pins e).length
      (H.lam Φ e) (C.connSet P.con e) (C.pinCount P.con e) (H.ew e) from' acc)
    refine ⟨?_, fun b hb => ?_⟩
    · rw [i1, h1.1, List.map_cons, List.sum_cons]; ring
    · rw [i2 b hb, h1.2 b hb, List.map_cons, List.sum_cons]; ring

/-- the entry of `u` is exact for assignment `Φ` -/
def EntryExact (H : HG) (k : Nat) (o : Metrics.Obj) (cache : Nat → Int) (Φ : Assign) (u : Nat) : Prop :=
  (∀ b, b < k → cache (benIdx k u b) = multSum H (benMult o) (fun _ => Φ) u b) ∧
  ∀ p, Φ u = some p → cache (penIdx k u) = multSum H (penMult o) (fun _ => Φ) u p

theorem storeEntry_spec (k u : Nat) (pen : Int) (agg cache : Nat → Int) :
    (storeEntry k u pen agg cache).1 (penIdx k u) = pen ∧
    (∀ b, b < k → (storeEntry k u pen agg cache).1 (benIdx k u b) = agg b) ∧
    (∀ v, v ≠ u → (storeEntry k u pen agg cache).1 (penIdx k v) = cache (penIdx k v) ∧
      ∀ b, b < k → (storeEntry k u pen agg cache).1 (benIdx k v b) = cache (benIdx k v b)) ∧
    (∀ b, b < k → (storeEntry k u pen agg cache).2 b = 0) := by
  unfold storeEntry
  have key : ∀ n, n ≤ k → ∀ c : Nat → Int,
      (∀ i, (∀ b, b < n → i ≠ benIdx k u b) → ((List.range n).foldl
        (fun (r : (Nat → Int) × (Nat → Int)) b =>
        ((fun i => if i = benIdx k u b then r.2 b else r.1 i), (fun b' => if b' = b then 0 else r.2 b')))
        (c, agg)).1 i = c i) ∧
      (∀ b, b < n → ((List.range n).foldl (fun (r : (Nat → Int) × (Nat → Int)) b =>
        ((fun i => if i = benIdx k u b then r.2 b else r.1 i), (fun b' => if b' = b then 0 else r.2 b')))
        (c, agg)).1 (benIdx k u b) = agg b) ∧
      (∀ b, ((List.range n).foldl (fun (r : (Nat → Int) × (Nat → Int)) b =>
        ((fun i => if i = benIdx k u b then r.2 b else r.1 i), (fun b' => if b' = b then 0 else r.2 b')))
        (c, agg)).2 b = if b < n then 0 else agg b) := by
    intro n
    induction n with
    | zero => intro _ c; simp
    | succ n ih =>
      intro hn c
      obtain ⟨i1, i2, i3⟩ := ih (by omega) c
      simp only [List.range_succ, List.foldl_append, List.foldl_cons, List.foldl_nil]
      refine ⟨fun i hi => ?_, fun b hb => ?_, fun b => ?_⟩
      · rw [if_neg (hi n (by omega))]
        exact i1 i (fun b hb => hi b (by omega))
      · by_cases h : b = n
        · subst h; rw [if_pos rfl, i3 b]; simp
        · have : benIdx k u b ≠ benIdx k u n := fun hh => h (benIdx_inj (by omega) (by omega) hh).2
          rw [if_neg this]; exact i2 b (by omega)
      · rw [i3 b]
        by_cases h : b = n
        · subst h; simp
        · by_cases h2 : b < n
          · have : b < n + 1 := by omega
            simp [h, h2, this]
          · have : ¬ b < n + 1 := by omega
            simp [h, h2, this]
  obtain ⟨i1, i2, i3⟩ := key k (Nat.le_refl k) (fun i => if i = penIdx k u then pen else cache i)
  refine ⟨?_, i2, fun v hv => ⟨?_, fun b hb => ?_⟩, fun b hb => by rw [i3 b]; simp [hb]⟩
  · rw [i1 _ (fun b hb => penIdx_ne_benIdx hb)]; simp
  · rw [i1 _ (fun b hb => penIdx_ne_benIdx hb), if_neg (fun hh => hv (penIdx_inj hh))]
  · rw [i1 _ (fun b' hb' hh => hv (benIdx_inj hb hb' hh).1), if_neg (penIdx_ne_benIdx hb).symm]

/-- invariant between two initialisation tasks -/
structure InitInv (H : HG) (k : Nat) (o : Metrics.Obj) (Φ : Assign) (done : List Nat)
    (st : (Nat → Int) × (Nat → Nat → Int)) : Prop where
  zero : ∀ t b, b < k → st.2 t b = 0
  exact' : ∀ u ∈ done, EntryExact H k o st.1 Φ u

theorem EntryExact.keep {o : Metrics.Obj} {c c' : Nat → Int} {Φ : Assign} {v : Nat}
    (h : EntryExact H k o c Φ v) (h1 : c' (penIdx k v) = c (penIdx k v))
    (h2 : ∀ b, b < k → c' (benIdx k v b) = c (benIdx k v b)) : EntryExact H k o c' Φ v :=
  ⟨fun b hb => by rw [h2 b hb]; exact h.1 b hb, fun p hp => by rw [h1]; exact h.2 p hp⟩

theorem initLow_inv {L : C.Lawful m k mx} (hw : H.WF) (hf : H.Fits m mx) {P : PHG σ} {Φ : Assign}
    (hS : Sim L H P Φ) (o : Metrics.Obj) {st} {done : List Nat} (hI : InitInv H k o Φ done st)
    {t u from' : Nat} (hu : u ∈ H.nodes) (hp : Φ u = some from') (hk : from' < k) :
    InitInv H k o Φ (u :: done) (initLow C H k o P st t u) := by
  have hpp : P.part u = some from' := by rw [hS.part]; exact hp
  obtain ⟨f1, f2⟩ := initFold_eq hw hf hS o hu hp hk (H.inc u) (fun _ h => h) (0, st.2 t)
  unfold initLow initEntry
  simp only [hpp]
  obtain ⟨s1, s2, s3, s4⟩ := storeEntry_spec k u
    ((H.inc u).foldl (fun acc e => initEdgeContribution o (H.pins e).length
      (C.connectivity P.con e) (C.connSet P.con e) (C.pinCount P.con e) (H.ew e) from' acc) (0, st.2 t)).1
    ((H.inc u).foldl (fun acc e => initEdgeContribution o (H.pins e).length
      (C.connectivity P.con e) (C.connSet P.con e) (C.pinCount P.con e) (H.ew e) from' acc) (0, st.2 t)).2
    st.1
  constructor
  · intro t' b hb
    simp only
    split
    · exact s4 b hb
    · exact hI.zero t' b hb
  · intro v hv
    by_cases h : v = u
    · subst h
      refine ⟨fun b hb => ?_, fun p hpv => ?_⟩
      · simp only; rw [s2 b hb, f2 b hb]; simp only [hI.zero t b hb, zero_add]; rfl
      · rw [hp] at hpv; cases hpv
        simp only; rw [s1, f1]; simp only [zero_add]; rfl
    · have hvd : v ∈ done := by
        rcases List.mem_cons.1 hv with h1 | h1
        · exact absurd h1 h
        · exact h1
      exact (hI.exact' v hvd).keep (s3 v h).1 (s3 v h).2

/-- chunks distributed over threads: aggregated sums -/
theorem chunks_eq {L : C.Lawful m k mx} (hw : H.WF) (hf : H.Fits m mx) {P : PHG σ} {Φ : Assign}
    (hS : Sim L H P Φ) (o : Metrics.Obj) {u from' : Nat} (hu : u ∈ H.nodes) (hp : Φ u = some from')
    (hk : from' < k) {threads : List Nat} (hn : threads.Nodup) :
    ∀ (chunks : List (Nat × List Nat)), (∀ c ∈ chunks, c.1 ∈ threads) →
    (∀ c ∈ chunks, ∀ e ∈ c.2, e ∈ H.inc u) → ∀ (q : Nat → Int × (Nat → Int)),
    let q' := chunks.foldl (fun (q : Nat → Int × (Nat → Int)) c =>
      let r := c.2.foldl (fun acc e => initEdgeContribution o (H.pins e).length
        (C.connectivity P.con e) (C.connSet P.con e) (C.pinCount P.con e) (H.ew e) from' acc) (q c.1)
      fun t => if t = c.1 then r else q t) q
    (threads.map (fun t => (q' t).1)).sum = (threads.map (fun t => (q t).1)).sum +
      ((chunks.flatMap Prod.snd).map
        (fun e => H.ew e * penMult o (H.pins e).length (H.pinsIn Φ e from'))).sum ∧
    (∀ b, b < k → (threads.map (fun t => (q' t).2 b)).sum = (threads.map (fun t => (q t).2 b)).sum +
      ((chunks.flatMap Prod.snd).map
        (fun e => H.ew e * benMult o (H.pins e).length (H.pinsIn Φ e b))).sum) ∧
    (∀ t, t ∉ threads → q' t = q t) := by
  intro chunks
  induction chunks with
  | nil => intro _ _ q; simp
  | cons c cs ih =>
    intro ht he q
    obtain ⟨f1, f2⟩ := initFold_eq hw hf hS o hu hp hk c.2 (fun e h => he c (by simp) e h) (q c.1)
    have hc := ht c (by simp)
    obtain ⟨i1, i2, i3⟩ := ih (fun c h => ht c (by simp [h])) (fun c h => he c (by simp [h]))
      (fun t => if t = c.1 then c.2.foldl (fun acc e => initEdgeContribution o (H.pins e).length
        (C.connectivity P.con e) (C.connSet P.con e) (C.pinCount P.con e) (H.ew e) from' acc) (q c.1)
        else q t)
    simp only [List.foldl_cons, List.flatMap_cons, List.map_append, List.sum_append]
    refine ⟨?_, fun b hb => ?_, fun t h => ?_⟩
    · rw [i1, sum_map_upd (f := fun t => (q t).1) hn hc (fun v hv => by simp [hv])]
      simp only [if_true]; rw [f1]; ring
    · rw [i2 b hb, sum_map_upd (f := fun t => (q t).2 b) hn hc (fun v hv => by simp [hv])]
      simp only [if_true]; rw [f2 b hb]; ring
    · rw [i3 t h, if_neg]; rintro rfl; exact h hc

theorem foldl_plus_eq_sum (l : List Int) : ∀ a, l.foldl (· + ·) a = a + l.sum := by
  induction l with
  | nil => simp
  | cons x l ih => intro a; rw [List.foldl_cons, ih, List.sum_cons]; ring

theorem initHigh_inv {L : C.Lawful m k mx} (hw : H.WF) (hf : H.Fits m mx) {P : PHG σ} {Φ : Assign}
    (hS : Sim L H P Φ) (o : Metrics.Obj) {st} {done : List Nat} (hI : InitInv H k o Φ done st)
    {u from' : Nat} (hu : u ∈ H.nodes) (hp : Φ u = some from') (hk : from' < k)
    {threads : List Nat} (hn : threads.Nodup) {chunks : List (Nat × List Nat)}
    (ht : ∀ c ∈ chunks, c.1 ∈ threads) (hch : (chunks.flatMap Prod.snd).Perm (H.inc u)) :
    InitInv H k o Φ (u :: done) (initHigh C H k o P threads st u chunks) := by
  have hpp : P.part u = some from' := by rw [hS.part]; exact hp
  have hmem : ∀ c ∈ chunks, ∀ e ∈ c.2, e ∈ H.inc u := fun c hc e he =>
    hch.mem_iff.1 (List.mem_flatMap.2 ⟨c, hc, he⟩)
  obtain ⟨f1, f2, f3⟩ := chunks_eq hw hf hS o hu hp hk hn chunks ht hmem (fun t => (0, st.2 t))
  unfold initHigh
  simp only [hpp]
  generalize hq : chunks.foldl (fun (q : Nat → Int × (Nat → Int)) c =>
      fun t => if t = c.1 then c.2.foldl (fun acc e => initEdgeContribution o (H.pins e).length
        (C.connectivity P.con e) (C.connSet P.con e) (C.pinCount P.con e) (H.ew e) from' acc) (q c.1)
        else q t) (fun t => (0, st.2 t)) = q at f1 f2 f3
  have key : ∀ n, n ≤ k → ∀ c : Nat → Int,
      let r := (List.range n).foldl (fun (r : (Nat → Int) × (Nat → Nat → Int)) b =>
        ((fun i => if i = benIdx k u b then (threads.map (fun t => r.2 t b)).foldl (· + ·) 0 else r.1 i),
         (fun t b' => if t ∈ threads ∧ b' = b then 0 else r.2 t b'))) (c, fun t => (q t).2)
      (∀ i, (∀ b, b < n → i ≠ benIdx k u b) → r.1 i = c i) ∧
      (∀ b, b < n → r.1 (benIdx k u b) = (threads.map (fun t => (q t).2 b)).sum) ∧
      (∀ t b, r.2 t b = if t ∈ threads ∧ b < n then 0 else (q t).2 b) := by
    intro n
    induction n with
    | zero => intro _ c; simp
    | succ n ih =>
      intro hn' c
      obtain ⟨i1, i2, i3⟩ := ih (by omega) c
      simp only [List.range_succ, List.foldl_append, List.foldl_cons, List.foldl_nil]
      refine ⟨fun i hi => ?_, fun b hb => ?_, fun t b => ?_⟩
      · rw [if_neg (hi n (by omega))]
        exact i1 i (fun b hb => hi b (by omega))
      · by_cases h : b = n
        · subst h
          rw [if_pos rfl, foldl_plus_eq_sum, zero_add]
          refine congrArg List.sum (List.map_congr_left (fun t _ => ?_))
          rw [i3 t b]; simp
        · have : benIdx k u b ≠ benIdx k u n := fun hh => h (benIdx_inj (by omega) (by omega) hh).2
          rw [if_neg this]; exact i2 b (by omega)
      · rw [i3 t b]
        by_cases ht : t ∈ threads
        · simp only [ht, true_and]
          split_ifs <;> first | rfl | omega
        · simp [ht]
  obtain ⟨i1, i2, i3⟩ := key k (Nat.le_refl k) (fun i => if i = penIdx k u then
    (threads.map (fun t => (q t).1)).foldl (· + ·) 0 else st.1 i)
  constructor
  · intro t b hb
    rw [i3 t b]
    split
    · rfl
    · rename_i h
      have : t ∉ threads := fun hh => h ⟨hh, hb⟩
      rw [f3 t this]; exact hI.zero t b hb
  · intro v hv
    by_cases h : v = u
    · subst h
      refine ⟨fun b hb => ?_, fun p hpv => ?_⟩
      · rw [i2 b hb, f2 b hb]
        have : (threads.map (fun t => st.2 t b)).sum = 0 := by
          rw [List.map_congr_left (g := fun _ => (0:Int)) (fun t _ => hI.zero t b hb)]; simp
        rw [this, zero_add, (hch.map _).sum_eq]; rfl
      · rw [hp] at hpv; cases hpv
        rw [i1 _ (fun b hb => penIdx_ne_benIdx hb), if_pos rfl, foldl_plus_eq_sum, zero_add, f1]
        have h0 : (threads.map (fun _ => (0 : Int))).sum = 0 := by simp
        simp only [h0, zero_add]
        rw [(hch.map _).sum_eq]; rfl
    · have hvd : v ∈ done := by
        rcases List.mem_cons.1 hv with h1 | h1
        · exact absurd h1 h
        · exact h1
      refine (hI.exact' v hvd).keep ?_ (fun b hb => ?_)
      · rw [i1 _ (fun b hb => penIdx_ne_benIdx hb), if_neg (fun hh => h (penIdx_inj hh))]
      · rw [i1 _ (fun b' hb' hh => h (benIdx_inj hb hb' hh).1), if_neg (penIdx_ne_benIdx hb).symm]

/-- a legal distribution of the initialisation work -/
def InitTask.Legal (H : HG) (threads : List Nat) : InitTask → Prop
  | .low _ u => u ∈ H.nodes
  | .high u chunks => u ∈ H.nodes ∧ (∀ c ∈ chunks, c.1 ∈ threads) ∧
      (chunks.flatMap Prod.snd).Perm (H.inc u)

/-- Initialisation makes every entry exact, for every order and distribution of the work. -/
theorem initCache_exact {L : C.Lawful m k mx} (hw : H.WF) (hf : H.Fits m mx) {P : PHG σ} {Φ : Assign}
    (hS : Sim L H P Φ) (o : Metrics.Obj) (hall : ∀ u ∈ H.nodes, ∃ b, b < k ∧ Φ u = some b)
    {threads : List Nat} (hn : threads.Nodup) (tasks : List InitTask)
    (hl : ∀ t ∈ tasks, t.Legal H threads) (cache : Nat → Int) :
    ∀ t ∈ tasks, EntryExact H k o (initCache C H k o P threads tasks cache).1 Φ t.node := by
  have key : ∀ (tasks : List InitTask), (∀ t ∈ tasks, t.Legal H threads) →
      ∀ (done : List Nat) st, InitInv H k o Φ done st →
      ∃ done', (∀ u ∈ done, u ∈ done') ∧ (∀ t ∈ tasks, t.node ∈ done') ∧ InitInv H k o Φ done'
        (tasks.foldl (InitTask.run C H k o P threads) st) := by
    intro tasks
    induction tasks with
    | nil => intro _ done st h; exact ⟨done, fun _ h => h, by simp, h⟩
    | cons a l ih =>
      intro hl done st h
      have hstep : InitInv H k o Φ (a.node :: done) (InitTask.run C H k o P threads st a) := by
        have ha := hl a (by simp)
        cases a with
        | low t u =>
          obtain ⟨b, hb, hp⟩ := hall u ha
          exact initLow_inv hw hf hS o h ha hp hb
        | high u chunks =>
          obtain ⟨hu, h1, h2⟩ := ha
          obtain ⟨b, hb, hp⟩ := hall u hu
          exact initHigh_inv hw hf hS o h hu hp hb hn h1 h2
      obtain ⟨d, d1, d2, d3⟩ := ih (fun t ht => hl t (by simp [ht])) _ _ hstep
      refine ⟨d, fun u hu => d1 u (by simp [hu]), fun t ht => ?_, d3⟩
      rcases List.mem_cons.1 ht with rfl | ht
      · exact d1 _ (by simp)
      · exact d2 t ht
  obtain ⟨d, _, d2, d3⟩ := key tasks hl [] (cache, fun _ _ => 0) ⟨fun _ _ _ => rfl, by simp⟩
  exact fun t ht => d3.exact' _ (d2 t ht)

end

/-- The value `benefit - penalty` is the decrease of the objective. -/
theorem mult_gain_eq {H : HG} (hw : H.WF) {Φ : Assign} {v src dst : Nat} (hv : v ∈ H.nodes)
    (hp : Φ v = some src) (hne : src ≠ dst) (hall : ∀ x ∈ H.nodes, Φ x ≠ none) (o : Metrics.Obj) :
    multSum H (benMult o) (fun _ => Φ) v dst - multSum H (penMult o) (fun _ => Φ) v src =
      H.objective Φ o - H.objective (Φ.put v dst) o := by
  have hobj : ∀ Ψ : Assign, H.objective Ψ o = (H.edges.map (fun e => H.term Ψ e o)).sum := by
    intro Ψ; cases o <;> rfl
  rw [hobj, hobj]
  have hterm : ∀ e ∈ H.inc v, H.term (Φ.put v dst) e o = H.term Φ e o -
      (H.ew e * benMult o (H.pins e).length (H.pinsIn Φ e dst) -
       H.ew e * penMult o (H.pins e).length (H.pinsIn Φ e src)) := by
    intro e he
    obtain ⟨heE, hpin⟩ := (hw.inc_iff v hv e).1 he
    have hn := hw.pins_nodup e heE
    have hA := attrGain_eq hn hpin hp hne (fun x hx => hall x (hw.pins_mem e heE x hx)) o
    have key : ∀ c, H.pinsIn (Φ.put v dst) e c + (if Φ v = some c then 1 else 0) =
      H.pinsIn Φ e c + (if c = dst then 1 else 0) := fun c => HG.pinsIn_put_mem hn hpin
    simp only [hp, Option.some.injEq] at key
    have ks := key src
    have kd := key dst
    simp only [if_true, if_neg hne] at ks kd
    have ad := H.pinsIn_add_le (Φ := Φ) (e := e) hne
    have hs : 0 < H.pinsIn Φ e src := by
      unfold HG.pinsIn; rw [List.countP_pos_iff]; exact ⟨v, hpin, by simp [hp]⟩
    have : attrGain o (H.mkUpdate Φ e v src dst) =
        -(H.ew e * benMult o (H.pins e).length (H.pinsIn Φ e dst) -
       H.ew e * penMult o (H.pins e).length (H.pinsIn Φ e src)) := by
      have e1 : H.pinsIn (Φ.put v dst) e src = H.pinsIn Φ e src - 1 := by omega
      have e2 : H.pinsIn (Φ.put v dst) e dst = H.pinsIn Φ e dst + 1 := by omega
      unfold HG.mkUpdate
      rw [e1, e2]
      generalize H.pinsIn Φ e src = a at *
      generalize H.pinsIn Φ e dst = b at *
      generalize (H.pins e).length = n at *
      generalize H.ew e = w at *
      cases o with
      | km1 =>
        simp only [attrGain, attrKm1, benMult, penMult]
        split_ifs <;> first | omega | (simp; done) | skip
      | cut =>
        simp only [attrGain, attrCut, benMult, penMult, b2i, decide_eq_true_eq]
        split_ifs <;> first | omega | (simp; done) | skip
      | soed =>
        simp only [attrGain, attrSoed, benMult, penMult, b2i, decide_eq_true_eq]
        split_ifs <;> first | omega | (simp; done) | (ring; done) | skip
    rw [this] at hA; omega
  have hother : ∀ e ∈ H.edges, v ∉ H.pins e → H.term (Φ.put v dst) e o = H.term Φ e o := by
    intro e he hnp
    refine HG.term_congr (fun x hx => Assign.put_other _ ?_) o
    rintro rfl; exact hnp hx
  -- sum over all edges = sum over incident edges
  have hsum : ∀ (l : List Nat), l.Nodup → (∀ e ∈ l, e ∈ H.edges) →
      (l.map (fun e => H.term Φ e o)).sum - (l.map (fun e => H.term (Φ.put v dst) e o)).sum =
      ((l.filter (fun e => v ∈ H.pins e)).map (fun e =>
        H.ew e * benMult o (H.pins e).length (H.pinsIn Φ e dst) -
        H.ew e * penMult o (H.pins e).length (H.pinsIn Φ e src))).sum := by
    intro l
    induction l with
    | nil => simp
    | cons a l ih =>
      intro hn hl
      rw [List.nodup_cons] at hn
      have := ih hn.2 (fun e he => hl e (by simp [he]))
      have haE := hl a (by simp)
      simp only [List.map_cons, List.sum_cons]
      by_cases hpin : v ∈ H.pins a
      · rw [List.filter_cons_of_pos (by simpa using hpin), List.map_cons, List.sum_cons,
          hterm a ((hw.inc_iff v hv a).2 ⟨haE, hpin⟩)]
        omega
      · rw [List.filter_cons_of_neg (by simpa using hpin), hother a haE hpin]
        omega
  rw [hsum H.edges hw.edges_nodup (fun _ h => h)]
  have hperm : (H.edges.filter (fun e => v ∈ H.pins e)).Perm (H.inc v) := by
    rw [List.perm_ext_iff_of_nodup (hw.edges_nodup.filter _) (hw.inc_nodup v hv)]
    intro e
    rw [List.mem_filter, hw.inc_iff v hv e]; simp
  rw [(hperm.map _).sum_eq]
  have hsub : ∀ l : List Nat, ∀ f g : Nat → Int, (l.map f).sum - (l.map g).sum =
      (l.map (fun e => f e - g e)).sum := by
    intro l f g
    induction l with
    | nil => simp
    | cons a l ih => simp only [List.map_cons, List.sum_cons]; omega
  exact hsub _ _ _

end Verif
