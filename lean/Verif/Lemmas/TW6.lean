import Verif.Lemmas.TW5
/-! # 2-way FM: initialisation, loop, rollback -/
namespace Verif
namespace TwoWay
open DFlow (set set_same set_other set_apply)

variable {ι : Type} {c : Cfg ι}

/-! ### Initialisation -/

theorem init_fold (hw : c.H.WF) : ∀ (l : List Nat) (t : St) (D : List Nat), l.Nodup → (∀ v ∈ l, v ∈ c.H.nodes ∧ v ∉ D) → Two c.H t.Φ → ENok c t → PQok c.H (· ∈ D) t →
    ∃ t', l.foldl (fun s v => activate c { s with vs := set s.vs v .inactive } v) t = t' ∧ ENok c t' ∧ PQok c.H (· ∈ D ++ l) t' ∧ t'.Φ = t.Φ ∧ t'.hs = t.hs ∧
      t'.nc = t.nc ∧ t'.act = t.act ∧ t'.rem = t.rem ∧ ∀ u, t'.vs u = if u ∈ l then (if 0 < t.nc u then .active else .inactive) else t.vs u := by
  intro l
  induction l with
  | nil => intro t D _ _ _ hE hP; exact ⟨t, rfl, hE, by simpa using hP, rfl, rfl, rfl, rfl, rfl, by simp⟩
  | cons v l ih =>
    intro t D hn hl hT hE hP
    obtain ⟨ha, hn'⟩ := List.nodup_cons.1 hn
    obtain ⟨hv, hvD⟩ := hl v (by simp)
    have hb : ∃ b, t.Φ v = some b := by rcases hT v hv with h | h <;> exact ⟨_, h⟩
    obtain ⟨b, hb⟩ := hb
    have hP0 : PQok c.H (· ∈ D) { t with vs := set t.vs v .inactive } := by
      refine ⟨?_, ?_⟩
      · intro u p hD hact hΦ hp
        have huv : u ≠ v := fun h => hvD (h ▸ hD)
        have hact' : set t.vs v .inactive u = .active := hact
        rw [set_other _ _ huv] at hact'
        exact hP.yes u p hD hact' hΦ hp
      · intro u p hno
        apply hP.no
        rintro ⟨a1, a2, a3⟩
        have huv : u ≠ v := fun h => hvD (h ▸ a1)
        exact hno ⟨a1, by show set t.vs v .inactive u = _; rw [set_other _ _ huv]; exact a2, a3⟩
    obtain ⟨r1, r2, r3, r4, r5, r6, r7, r8⟩ := activate_spec (s := { t with vs := set t.vs v .inactive }) hE hP0 hv hb (hT.lt hv hb) (set_same _ _ _)
    have hD : (fun u => u ∈ D ∨ u = v) = (· ∈ D ++ [v]) := by funext u; simp
    rw [hD] at r2
    obtain ⟨t', e, i1, i2, i3, i4, i5, i6, i7, i8⟩ := ih _ (D ++ [v]) hn' (fun u hu => ⟨(hl u (List.mem_cons_of_mem _ hu)).1, by
      rw [List.mem_append, List.mem_singleton]
      rintro (h | h)
      · exact (hl u (List.mem_cons_of_mem _ hu)).2 h
      · exact ha (h ▸ hu)⟩) (by rw [r3]; exact hT) r1 r2
    refine ⟨t', by rw [List.foldl_cons]; exact e, i1, by simpa using i2, i3.trans r3, i4.trans r4, i5.trans r5, i6.trans r6, i7.trans r7, ?_⟩
    intro u
    rw [i8, r5, r8]
    by_cases huv : u = v
    · subst huv
      rw [if_neg ha, set_same, if_pos (c := u ∈ u :: l) (by simp)]
    · rw [set_other _ _ huv]
      show (if u ∈ l then _ else set t.vs v .inactive u) = _
      rw [set_other _ _ huv]
      simp only [List.mem_cons, huv, false_or]

/-- the state before the nodes are activated -/
def initBase (c : Cfg ι) (s : St) : St :=
  { s with
    nc := fun v => if v ∈ c.H.nodes then (c.H.inc v).countP (fun e => decide (c.H.lam s.Φ e > 1)) else 0
    vs := fun v => if v ∈ c.H.nodes ∧ c.fixed v = true then VS.moved else s.vs v
    pq := fun _ _ => none
    en := fun _ => false
    act := []
    rem := [] }

theorem initSt_eq (s : St) (order : List Nat) : initSt c s order =
    { order.foldl (fun s v => activate c { s with vs := set s.vs v .inactive } v) (initBase c s) with
      hs := fun e => if e ∈ c.H.edges then HS.free else (order.foldl (fun s v => activate c { s with vs := set s.vs v .inactive } v) (initBase c s)).hs e } := rfl

theorem init_inv (hw : c.H.WF) {s : St} (hT : Two c.H s.Φ) {order : List Nat} (ho : order.Perm (c.H.nodes.filter (fun v => !c.fixed v))) :
    Inv c (initSt c s order) ∧ (initSt c s order).Φ = s.Φ ∧ ∀ v ∈ c.H.nodes, ((initSt c s order).vs v = .moved ↔ c.fixed v = true) := by
  have hmem : ∀ v, v ∈ order ↔ v ∈ c.H.nodes ∧ c.fixed v = false := by
    intro v; rw [ho.mem_iff, List.mem_filter]; simp
  have hnd : order.Nodup := ho.nodup_iff.2 (hw.nodes_nodup.filter _)
  rw [initSt_eq]
  generalize ht0 : initBase c s = t0
  have hE0 : ENok c t0 := by
    intro p
    have : nonempty c t0 p = false := by
      unfold nonempty
      rw [List.any_eq_false]
      intro v _
      subst ht0
      show ¬ ((none : Option Int).isSome = true)
      simp
    rw [this]
    subst ht0
    show false = true ↔ _
    simp
  have hP0 : PQok c.H (· ∈ ([] : List Nat)) t0 := ⟨fun v p h => by (cases h), fun _ _ _ => by subst ht0; rfl⟩
  have hΦ0 : t0.Φ = s.Φ := by subst ht0; rfl
  have hv0 : ∀ v, t0.vs v = if v ∈ c.H.nodes ∧ c.fixed v = true then VS.moved else s.vs v := by subst ht0; exact fun _ => rfl
  have hn0 : ∀ v ∈ c.H.nodes, t0.nc v = ncut c.H (fun _ => s.Φ) v := by
    subst ht0
    intro v hv
    show (if v ∈ c.H.nodes then _ else 0) = _
    rw [if_pos hv]; rfl
  have ha0 : t0.act = [] ∧ t0.rem = [] := by subst ht0; exact ⟨rfl, rfl⟩
  rw [← hΦ0] at hT
  obtain ⟨t', e, i1, i2, i3, i4, i5, i6, i7, i8⟩ := init_fold hw order t0 [] hnd (fun v hv => ⟨((hmem v).1 hv).1, by simp⟩) hT hE0 hP0
  rw [e]
  rw [List.nil_append] at i2
  have hmv : ∀ v ∈ c.H.nodes, (t'.vs v = .moved ↔ c.fixed v = true) := by
    intro v hv
    rw [i8]
    by_cases hf : c.fixed v = true
    · rw [if_neg (by rw [hmem]; simp [hf])]
      rw [hv0, if_pos ⟨hv, hf⟩]; simp [hf]
    · rw [if_pos ((hmem v).2 ⟨hv, by simpa using hf⟩)]
      by_cases hz : 0 < t0.nc v
      · rw [if_pos hz]; simp [hf]
      · rw [if_neg hz]; simp [hf]
  have hnc : ∀ v ∈ c.H.nodes, t'.nc v = ncut c.H (fun _ => t'.Φ) v := by
    intro v hv
    rw [i5, i3, hΦ0]; exact hn0 v hv
  refine ⟨⟨by rw [show ({ t' with hs := _ } : St).Φ = t'.Φ from rfl, i3]; exact hT, hnc, fun v hv hf => (hmv v hv).2 hf, ?_, ?_, ?_, i1, i6.trans ha0.1, i7.trans ha0.2⟩, i3.trans hΦ0, hmv⟩
  · intro v hv hm
    have hf : c.fixed v = false := by
      cases hf : c.fixed v with
      | false => rfl
      | true => exact absurd ((hmv v hv).2 hf) hm
    show t'.vs v = .active ↔ 0 < t'.nc v
    rw [i8, if_pos ((hmem v).2 ⟨hv, hf⟩), i5]
    by_cases hz : 0 < t0.nc v
    · rw [if_pos hz]; simp [hz]
    · rw [if_neg hz]; simp [hz]
  · refine ⟨?_, ?_⟩
    · intro v p hD ha hΦ hp
      have ha' : t'.vs v = .active := ha
      have hf : c.fixed v ≠ true := by
        intro hf
        rw [(hmv v hD).2 hf] at ha'; cases ha'
      exact i2.yes v p ((hmem v).2 ⟨hD, by simpa using hf⟩) ha hΦ hp
    · intro v p hno
      apply i2.no
      rintro ⟨a1, a2⟩
      exact hno ⟨((hmem v).1 a1).1, a2⟩
  · refine ⟨?_, ?_⟩
    · intro e he b hb
      have : (if e ∈ c.H.edges then HS.free else t'.hs e) = .loose b := hb
      rw [if_pos he] at this; cases this
    · intro e he hb
      have : (if e ∈ c.H.edges then HS.free else t'.hs e) = .locked := hb
      rw [if_pos he] at this; cases this

/-! ### Flips -/

/-- `v` changes its block -/
def flip (Φ : Assign) (v : Nat) : Assign :=
  match Φ v with
  | none => Φ
  | some b => Φ.put v (1 - b)

def flips (Φ : Assign) (l : List Nat) : Assign := l.foldl flip Φ

theorem rollback_eq (Φ : Assign) (l : List Nat) (i : Nat) : rollback Φ l i = flips Φ (l.drop i) := rfl

theorem flip_apply (Φ : Assign) (v u : Nat) : flip Φ v u = if u = v then (Φ v).map (1 - ·) else Φ u := by
  unfold flip
  cases h : Φ v with
  | none =>
    by_cases hu : u = v
    · rw [if_pos hu, hu]; exact h
    · rw [if_neg hu]
  | some b => rfl

theorem flips_apply : ∀ (l : List Nat), l.Nodup → ∀ (Φ : Assign) (u : Nat), flips Φ l u = if u ∈ l then (Φ u).map (1 - ·) else Φ u := by
  intro l
  induction l with
  | nil => intro _ Φ u; simp [flips]
  | cons v l ih =>
    intro hn Φ u
    obtain ⟨ha, hn'⟩ := List.nodup_cons.1 hn
    show flips (flip Φ v) l u = _
    rw [ih hn', flip_apply]
    by_cases huv : u = v
    · subst huv; rw [if_neg ha, if_pos rfl, if_pos (by simp)]
    · rw [if_neg huv]; simp only [List.mem_cons, huv, false_or]

theorem flips_back {Φ : Assign} {l : List Nat} (hn : l.Nodup) (h : ∀ v ∈ l, Φ v = some 0 ∨ Φ v = some 1) (i : Nat) :
    flips (flips Φ l) (l.drop i) = flips Φ (l.take i) := by
  funext u
  have hd : (l.drop i).Nodup := hn.sublist (List.drop_sublist _ _)
  have ht : (l.take i).Nodup := hn.sublist (List.take_sublist _ _)
  rw [flips_apply _ hd, flips_apply _ ht, flips_apply _ hn]
  by_cases hu : u ∈ l
  · rw [if_pos hu]
    have hsplit : u ∈ l.take i ∨ u ∈ l.drop i := by
      rw [← List.mem_append, List.take_append_drop]; exact hu
    have hdis : ¬ (u ∈ l.take i ∧ u ∈ l.drop i) := by
      rintro ⟨h1, h2⟩
      have : (l.take i ++ l.drop i).Nodup := by rw [List.take_append_drop]; exact hn
      exact (List.disjoint_of_nodup_append this) h1 h2
    by_cases h1 : u ∈ l.take i
    · have h2 : u ∉ l.drop i := fun x => hdis ⟨h1, x⟩
      rw [if_pos h1, if_neg h2]
    · have h2 := hsplit.resolve_left h1
      rw [if_neg h1, if_pos h2]
      rcases h u hu with h' | h' <;> rw [h'] <;> rfl
  · rw [if_neg hu, if_neg (fun x => hu (List.mem_of_mem_drop x)), if_neg (fun x => hu (List.mem_of_mem_take x))]

/-! ### The loop -/

section
variable [LinearOrder ι]

/-- lexicographic order -/
def Lex (q : Int) (i : ι) (q' : Int) (i' : ι) : Prop := q < q' ∨ (q = q' ∧ i < i')

/-- invariant of the loop; `tried` are the nodes that have been popped -/
structure LInv (c : Cfg ι) (Φ : Assign) (tried : List Nat) (l : Loop ι) : Prop where
  inv : Inv c l.s
  nodup : l.moves.Nodup
  sub : ∀ v ∈ l.moves, v ∈ tried
  tnodup : tried.Nodup
  tmem : ∀ v ∈ tried, v ∈ c.H.nodes ∧ c.fixed v = false
  tmv : ∀ v ∈ c.H.nodes, (l.s.vs v = .moved ↔ v ∈ tried ∨ c.fixed v = true)
  part : l.s.Φ = flips Φ l.moves
  cut : l.cut = c.H.cut l.s.Φ
  idx : l.idx ≤ l.moves.length
  bestQ : l.bestQ = c.H.cut (flips Φ (l.moves.take l.idx))
  bestI : l.bestI = c.imb (c.H.blockWeight (flips Φ (l.moves.take l.idx)) 0) (c.H.blockWeight (flips Φ (l.moves.take l.idx)) 1)
  better : l.idx = 0 ∨ Lex l.bestQ l.bestI (c.H.cut Φ) (c.imb (c.H.blockWeight Φ 0) (c.H.blockWeight Φ 1))
  balC : ∀ b < 2, wt c l.s b ≤ max (c.H.blockWeight Φ b) (c.mx b)
  balB : ∀ b < 2, c.H.blockWeight (flips Φ (l.moves.take l.idx)) b ≤ max (c.H.blockWeight Φ b) (c.mx b)
  pos : l.idx = 0 ∨ (∀ v ∈ c.H.nodes, 0 < c.H.nw v) → l.idx = 0 ∨ ∀ b < 2, 0 < c.H.blockWeight (flips Φ (l.moves.take l.idx)) b

theorem isMax_iff {s : St} {v p : Nat} {key : Int} : isMax c s v p key = true ↔ p < 2 ∧ s.en p = true ∧ v ∈ c.H.nodes ∧ s.pq p v = some key ∧
    ∀ q < 2, s.en q = true → ∀ u ∈ c.H.nodes, ∀ k, s.pq q u = some k → k ≤ key := by
  unfold isMax
  simp only [Bool.and_eq_true, decide_eq_true_eq, List.all_cons, List.all_nil, Bool.and_true, Bool.or_eq_true, Bool.not_eq_true', List.all_eq_true]
  have hq : ∀ q, ((∀ u ∈ c.H.nodes, keyLe key (s.pq q u) = true) ↔ ∀ u ∈ c.H.nodes, ∀ k, s.pq q u = some k → k ≤ key) := by
    intro q
    constructor
    · intro h u hu k hk
      have := h u hu
      rw [hk] at this
      unfold keyLe at this
      simpa using this
    · intro h u hu
      cases hk : s.pq q u with
      | none => rfl
      | some k => unfold keyLe; simpa using h u hu k hk
  rw [hq 0, hq 1]
  constructor
  · rintro ⟨⟨⟨⟨h1, h2⟩, h3⟩, h4⟩, h5, h6⟩
    refine ⟨h1, h2, h3, h4, ?_⟩
    intro q hq2 he
    have : q = 0 ∨ q = 1 := by omega
    rcases this with rfl | rfl
    · exact h5.resolve_left (by rw [he]; simp)
    · exact h6.resolve_left (by rw [he]; simp)
  · rintro ⟨h1, h2, h3, h4, h5⟩
    refine ⟨⟨⟨⟨h1, h2⟩, h3⟩, h4⟩, ?_, ?_⟩
    · cases he : s.en 0 with
      | false => exact Or.inl rfl
      | true => exact Or.inr (h5 0 (by omega) he)
    · cases he : s.en 1 with
      | false => exact Or.inl rfl
      | true => exact Or.inr (h5 1 (by omega) he)

theorem blockWeight_nonneg {H : HG} (h : ∀ v ∈ H.nodes, 0 ≤ H.nw v) (Φ : Assign) (b : Nat) : 0 ≤ H.blockWeight Φ b := by
  unfold HG.blockWeight
  apply List.sum_nonneg
  intro x hx
  obtain ⟨v, hv, rfl⟩ := List.mem_map.1 hx
  exact h v (List.mem_filter.1 hv).1

theorem blockWeight_ge {H : HG} (hn : H.nodes.Nodup) (h : ∀ v ∈ H.nodes, 0 ≤ H.nw v) {Φ : Assign} {b v : Nat} (hv : v ∈ H.nodes) (hb : Φ v = some b) :
    H.nw v ≤ H.blockWeight Φ b := by
  have : H.nw v ∈ ((H.nodes.filter (fun v => Φ v = some b)).map H.nw) := List.mem_map.2 ⟨v, List.mem_filter.2 ⟨hv, by simp [hb]⟩, rfl⟩
  unfold HG.blockWeight
  apply List.single_le_sum _ _ this
  intro x hx
  obtain ⟨v, hv, rfl⟩ := List.mem_map.1 hx
  exact h v (List.mem_filter.1 hv).1

theorem step_inv (hw : c.H.WF) (hnw : ∀ v ∈ c.H.nodes, 0 ≤ c.H.nw v) {Φ : Assign} {tried : List Nat} {l l' : Loop ι} (h : LInv c Φ tried l)
    {x : Nat × Nat × Int} (hx : step c l x = some l') : LInv c Φ (tried ++ [x.1]) l' := by
  obtain ⟨v, dst, gain⟩ := x
  unfold step at hx
  dsimp only at hx
  by_cases hm : isMax c l.s v dst gain = true
  swap
  · rw [if_neg hm] at hx; cases hx
  rw [if_pos hm] at hx
  obtain ⟨m1, m2, m3, m4, m5⟩ := isMax_iff.1 hm
  obtain ⟨e1, e2, e3, e4, e5⟩ := h.inv.entry m4
  obtain ⟨p1, p2, p3, p4⟩ := pop_inv h.inv m4
  rw [e3] at hx
  dsimp only at hx
  have hdd : 1 - (1 - dst) = dst := by omega
  have hsd : 1 - dst ≠ dst := by omega
  have hnt : v ∉ tried := by
    intro hh
    have := (h.tmv v m3).2 (Or.inl hh)
    rw [e2] at this; cases this
  have hnf : c.fixed v = false := by
    cases hf : c.fixed v with
    | false => rfl
    | true =>
      have := (h.tmv v m3).2 (Or.inr hf)
      rw [e2] at this; cases this
  have hnm : v ∉ l.moves := fun hh => hnt (h.sub v hh)
  have htn : (tried ++ [v]).Nodup := by
    apply List.Nodup.append h.tnodup (by simp)
    simpa using hnt
  have htm : ∀ u ∈ tried ++ [v], u ∈ c.H.nodes ∧ c.fixed u = false := by
    intro u hu
    rcases List.mem_append.1 hu with hu | hu
    · exact h.tmem u hu
    · rw [List.mem_singleton.1 hu]; exact ⟨m3, hnf⟩
  have htv : ∀ u ∈ c.H.nodes, ((popped c l.s v dst).vs u = .moved ↔ u ∈ tried ++ [v] ∨ c.fixed u = true) := by
    intro u hu
    rw [p3, set_apply]
    by_cases huv : u = v
    · rw [if_pos huv]; simp [huv]
    · rw [if_neg huv, h.tmv u hu]; simp [huv]
  have hpop : ({ pqRemove c l.s dst v with vs := set (pqRemove c l.s dst v).vs v .moved } : St) = popped c l.s v dst := rfl
  rw [hpop] at hx
  by_cases hc : wt c (popped c l.s v dst) dst + c.H.nw v ≤ c.mx dst
  swap
  · rw [if_neg hc] at hx
    cases hx
    refine ⟨p1, h.nodup, fun u hu => List.mem_append_left _ (h.sub u hu), htn, htm, htv, p2.trans h.part, ?_, h.idx, h.bestQ, h.bestI, h.better, ?_, h.balB, h.pos⟩
    · show l.cut = c.H.cut (popped c l.s v dst).Φ
      rw [p2]; exact h.cut
    · intro b hb
      show c.H.blockWeight (popped c l.s v dst).Φ b ≤ _
      rw [p2]; exact h.balC b hb
  rw [if_pos hc] at hx
  have hA := applyMove_inv hw hnw p1 (hn := v) (src := 1 - dst) m3 (by rw [p2]; exact e3) (by rw [p3]; exact set_same _ _ _) (by rw [p2]; exact p4)
  rw [hdd] at hA
  obtain ⟨a1, a2, a3⟩ := hA
  set s' := applyMove c (popped c l.s v dst) v (1 - dst) dst with hs'
  have hΦ' : s'.Φ = l.s.Φ.put v dst := by rw [a2, p2]
  have hflip : s'.Φ = flips Φ (l.moves ++ [v]) := by
    unfold flips
    rw [List.foldl_append]
    show s'.Φ = flip (flips Φ l.moves) v
    rw [← h.part, hΦ']
    unfold flip
    rw [e3]
    dsimp only
    rw [hdd]
  have hcut : l.cut - gain = c.H.cut s'.Φ := by
    have := gain_eq hw h.inv.two m3 e3
    rw [hdd] at this
    rw [e5, this, hΦ', h.cut]; omega
  have hwt : ∀ b, wt c s' b = wt c l.s b + (if b = dst then c.H.nw v else 0) - (if l.s.Φ v = some b then c.H.nw v else 0) := by
    intro b
    show c.H.blockWeight s'.Φ b = c.H.blockWeight l.s.Φ b + _ - _
    rw [hΦ']
    exact HG.blockWeight_put hw.nodes_nodup m3
  have hnv := hnw v m3
  have hbal : ∀ b < 2, wt c s' b ≤ max (c.H.blockWeight Φ b) (c.mx b) := by
    intro b hb
    by_cases hbd : b = dst
    · subst hbd
      rw [hwt, if_pos rfl, if_neg (by rw [e3]; simpa using hsd)]
      have : wt c (popped c l.s v b) b = wt c l.s b := by unfold wt; rw [p2]
      rw [this] at hc
      have := le_max_right (c.H.blockWeight Φ b) (c.mx b)
      omega
    · have hbs : b = 1 - dst := by omega
      rw [hwt, if_neg hbd, if_pos (by rw [e3, hbs])]
      have := h.balC b hb
      omega
  have htv' : ∀ u ∈ c.H.nodes, (s'.vs u = .moved ↔ u ∈ tried ++ [v] ∨ c.fixed u = true) := fun u hu => (a3 u).trans (htv u hu)
  have hmn : (l.moves ++ [v]).Nodup := by
    apply List.Nodup.append h.nodup (by simp)
    simpa using hnm
  have hsub : ∀ u ∈ l.moves ++ [v], u ∈ tried ++ [v] := by
    intro u hu
    rcases List.mem_append.1 hu with hu | hu
    · exact List.mem_append_left _ (h.sub u hu)
    · exact List.mem_append_right _ hu
  by_cases hacc : 0 < wt c s' (1 - dst) ∧ ((l.cut - gain < l.bestQ ∧ wt c s' 0 ≤ c.mx 0 ∧ wt c s' 1 ≤ c.mx 1) ∨ (c.imb (wt c s' 0) (wt c s' 1) < l.bestI ∧ l.cut - gain ≤ l.bestQ))
  · rw [if_pos hacc] at hx
    cases hx
    have htk : (l.moves ++ [v]).take (l.moves ++ [v]).length = l.moves ++ [v] := List.take_length
    refine ⟨a1, hmn, hsub, htn, htm, htv', hflip, hcut, le_refl _, ?_, ?_, ?_, hbal, ?_, ?_⟩
    · dsimp only
      rw [htk, ← hflip]; exact hcut
    · dsimp only
      rw [htk, ← hflip]; rfl
    · dsimp only
      right
      have hlt : Lex (l.cut - gain) (c.imb (wt c s' 0) (wt c s' 1)) l.bestQ l.bestI := by
        rcases hacc.2 with h1 | h1
        · exact Or.inl h1.1
        · rcases lt_or_eq_of_le h1.2 with h2 | h2
          · exact Or.inl h2
          · exact Or.inr ⟨h2, h1.1⟩
      have hle : Lex l.bestQ l.bestI (c.H.cut Φ) (c.imb (c.H.blockWeight Φ 0) (c.H.blockWeight Φ 1)) ∨
          (l.bestQ = c.H.cut Φ ∧ l.bestI = c.imb (c.H.blockWeight Φ 0) (c.H.blockWeight Φ 1)) := by
        rcases h.better with h1 | h1
        · right
          have h2 := h.bestQ
          have h3 := h.bestI
          rw [h1] at h2 h3
          exact ⟨h2, h3⟩
        · exact Or.inl h1
      rcases hle with h1 | ⟨h1, h2⟩
      · rcases hlt with h3 | ⟨h3, h4⟩
        · rcases h1 with h5 | ⟨h5, h6⟩
          · exact Or.inl (lt_trans h3 h5)
          · exact Or.inl (h5 ▸ h3)
        · rcases h1 with h5 | ⟨h5, h6⟩
          · exact Or.inl (h3 ▸ h5)
          · exact Or.inr ⟨h3.trans h5, lt_trans h4 h6⟩
      · rw [h1, h2] at hlt; exact hlt
    · dsimp only
      rw [htk, ← hflip]; exact hbal
    · dsimp only
      rw [htk, ← hflip]
      rintro (h1 | h1)
      · exact Or.inl h1
      · right
        intro b hb
        by_cases hbd : b = dst
        · have := blockWeight_ge hw.nodes_nodup hnw (Φ := s'.Φ) (b := dst) m3 (by rw [hΦ', Assign.put_same])
          have := h1 v m3
          rw [hbd]; omega
        · have hbs : b = 1 - dst := by omega
          rw [hbs]; exact hacc.1
  · rw [if_neg hacc] at hx
    cases hx
    have htk : (l.moves ++ [v]).take l.idx = l.moves.take l.idx := by
      rw [List.take_append_of_le_length h.idx]
    refine ⟨a1, hmn, hsub, htn, htm, htv', hflip, hcut, ?_, ?_, ?_, h.better, hbal, ?_, ?_⟩
    · have := h.idx
      show l.idx ≤ (l.moves ++ [v]).length
      rw [List.length_append]; omega
    · dsimp only; rw [htk]; exact h.bestQ
    · dsimp only; rw [htk]; exact h.bestI
    · dsimp only; rw [htk]; exact h.balB
    · dsimp only; rw [htk]; exact h.pos

theorem loop_inv (hw : c.H.WF) (hnw : ∀ v ∈ c.H.nodes, 0 ≤ c.H.nw v) {Φ : Assign} : ∀ (xs : List (Nat × Nat × Int)) {tried : List Nat} {l l' : Loop ι},
    LInv c Φ tried l → loop c l xs = some l' → LInv c Φ (tried ++ xs.map Prod.fst) l' := by
  intro xs
  induction xs with
  | nil => intro tried l l' h hl; cases hl; simpa using h
  | cons x xs ih =>
    intro tried l l' h hl
    unfold loop at hl
    cases hs : step c l x with
    | none => rw [hs] at hl; cases hl
    | some l1 =>
      rw [hs] at hl
      have := ih (step_inv hw hnw h hs) hl
      simpa using this

theorem start_inv (hw : c.H.WF) {s : St} (hT : Two c.H s.Φ) {order : List Nat} (ho : order.Perm (c.H.nodes.filter (fun v => !c.fixed v))) :
    LInv c s.Φ [] ⟨initSt c s order, [], c.H.cut s.Φ, c.imb (c.H.blockWeight s.Φ 0) (c.H.blockWeight s.Φ 1), c.H.cut s.Φ,
      c.imb (c.H.blockWeight s.Φ 0) (c.H.blockWeight s.Φ 1), 0⟩ := by
  obtain ⟨h1, h2, h3⟩ := init_inv hw hT ho
  refine ⟨h1, List.nodup_nil, by simp, List.nodup_nil, by simp, fun v hv => by simpa using h3 v hv, h2, ?_, le_refl _, rfl, rfl, Or.inl rfl, ?_, ?_, fun _ => Or.inl rfl⟩
  · dsimp only; rw [h2]
  · intro b _
    show c.H.blockWeight (initSt c s order).Φ b ≤ _
    rw [h2]; exact le_max_left _ _
  · intro b _; exact le_max_left _ _

end

end TwoWay
end Verif
