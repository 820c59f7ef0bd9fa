import Verif.Lemmas.NLP5
import Verif.Lemmas.Dyn28
/-!
# The partition between two steps of the uncoarsening; uncontraction of a batch
-/
namespace Verif
namespace Dyn
open SMap (wr)

/-- nodes that are present -/
def DH.has (h : DH) (x : Nat) : Prop := x < h.n ∧ h.en x = true

theorem assignBatch_spec : ∀ (l : List (Nat × Nat)) (part : Assign), (l.map Prod.snd).Nodup → (∀ p ∈ l, ∀ q ∈ l, p.1 ≠ q.2) →
    (∀ p ∈ l, ∃ b, part p.1 = some b) →
    ∃ part', assignBatch l part = some part' ∧ (∀ p ∈ l, part' p.2 = part p.1) ∧ ∀ x, x ∉ l.map Prod.snd → part' x = part x
  | [], part, _, _, _ => ⟨part, rfl, fun _ h => (by cases h), fun _ _ => rfl⟩
  | (u, v) :: l, part, hn, hd, ha => by
    obtain ⟨b, hb⟩ := ha (u, v) (by simp)
    have hb' : part u = some b := hb
    have hn' : v ∉ l.map Prod.snd ∧ (l.map Prod.snd).Nodup := by simpa using hn
    have hput : ∀ p ∈ l, (part.put v b) p.1 = part p.1 := by
      intro p hp
      have : p.1 ≠ v := hd p (by simp [hp]) (u, v) (by simp)
      simp [Assign.put, this]
    obtain ⟨part', h1, h2, h3⟩ := assignBatch_spec l (part.put v b) hn'.2 (fun p hp q hq => hd p (by simp [hp]) q (by simp [hq]))
      (fun p hp => by rw [hput p hp]; exact ha p (by simp [hp]))
    refine ⟨part', by simp only [assignBatch, hb']; exact h1, ?_, ?_⟩
    · intro p hp
      rcases List.mem_cons.1 hp with h | h
      · subst h
        show part' v = part u
        rw [h3 v hn'.1, hb']; simp [Assign.put]
      · rw [h2 p h, hput p h]
    · intro x hx
      rw [List.map_cons, List.mem_cons, not_or] at hx
      rw [h3 x hx.2]
      simp [Assign.put, hx.1]

variable {σ : Type} {C : ConInfo σ} {m k mx : Nat}
variable {s0 : DH} {par ver bi : Nat → Nat} {G : Gh} {V c : Nat} {b : List (Nat × Nat)} {U : UG} {L : C.Lawful m k mx} {o : Metrics.Obj} {h : DH}

theorem bcnt_congr {part part' : Assign} {pins : List Nat} (h : ∀ x ∈ pins, part' x = part x) (b : Nat) : bcnt part' pins b = bcnt part pins b := by
  unfold bcnt
  exact List.countP_congr (fun x hx => by rw [h x hx])

theorem netPen_part {w : Int} {part part' : Assign} {pins : List Nat} {pc : Nat → Nat} (h : ∀ x ∈ pins, part' x = part x) (x : Nat) :
    netPen o w part' pins pc x = netPen o w part pins pc x := by
  unfold netPen
  by_cases hx : x ∈ pins
  · rw [if_pos hx, if_pos hx, h x hx]
  · rw [if_neg hx, if_neg hx]

theorem live_rest (hS : Stat s0 par ver bi G) (mg : Nat → Bool) (hm : ∀ v, mg v = true → par v ≠ v) {y : Nat} (hy : s0.live y) : ∀ i, s0.live ((restPar par mg)^[i] y)
  | 0 => hy
  | i + 1 => by
    rw [Function.iterate_succ_apply']
    have ih := live_rest hS mg hm hy i
    generalize (restPar par mg)^[i] y = z at ih ⊢
    by_cases hz : mg z = true
    · rw [restPar_mg hz]; exact (hS.live z (hm z hz)).2
    · rw [restPar_root (by simpa using hz)]; exact ih

/-- pins of enabled nets are present -/
theorem BInv.pinHas (hc : Clean s0) (hS : Stat s0 par ver bi G) (hI : BInv s0 par ver bi G V c h U) {e : Nat} (he : e < s0.m) (hen : h.een e = true)
    {x : Nat} (hx : x ∈ h.edgePins e) : h.has x := by
  obtain ⟨h1, h2⟩ := (hI.core.een e).1 hen
  have hu : s0.used e := ⟨he, h1⟩
  obtain ⟨h3, h4⟩ := (hI.pin_iff hS hu h2 x).1 hx
  obtain ⟨y, i, h5, h6⟩ := hI.isIn_orig h3
  have hl : s0.live y := hc.pins e hu y (List.mem_of_mem_take h5.2)
  have hlx : s0.live x := by rw [← h6]; exact live_rest hS U.mg (fun v hv => hI.core.tree.par_ne hv) hl i
  exact ⟨by rw [hI.core.nEq]; exact hlx.1, (hI.en hS x hlx.1).2 ⟨hlx.2, h4⟩⟩

theorem BInv.benAbsent (hc : Clean s0) (hS : Stat s0 par ver bi G) (hI : BInv s0 par ver bi G V c h U) (hm : s0.m = m) (part : Assign) {x : Nat} (hx : ¬ h.has x) :
    (∀ b, benSum o m h part x b = 0) ∧ penSum o m h part x = 0 := by
  have : ∀ e, e < m → h.een e = true → x ∉ h.edgePins e := fun e he hen hxe => hx (hI.pinHas hc hS (by omega) hen hxe)
  constructor
  · intro b
    unfold benSum
    refine Finset.sum_eq_zero (fun e he => ?_)
    by_cases hen : h.een e = true
    · rw [if_pos hen]; unfold netBen; rw [if_neg (this e (Finset.mem_range.1 he) hen)]
    · rw [if_neg hen]
  · unfold penSum
    refine Finset.sum_eq_zero (fun e he => ?_)
    by_cases hen : h.een e = true
    · rw [if_pos hen]; unfold netPen; rw [if_neg (this e (Finset.mem_range.1 he) hen)]
    · rw [if_neg hen]

/-- what holds between two steps of the uncoarsening -/
structure NInv (L : C.Lawful m k mx) (o : Metrics.Obj) (s : PHN σ) : Prop where
  con : ∃ T, L.R s.P.con T ∧ ∀ e, e < m → ∀ b, b < k → T e b = if s.h.een e = true then bcnt s.P.part (s.h.edgePins e) b else 0
  rng : ∀ v b, s.P.part v = some b → b < k
  full : ∀ v, s.h.has v → ∃ b, s.P.part v = some b
  wt : ∀ b, b < k → s.P.wt b = wtSum s.h s.P.part b
  ben : s.ini = true → ∀ x b, b < k → s.cache (benIdx k x b) = benSum o m s.h s.P.part x b
  pen : s.ini = true → ∀ x, s.cache (penIdx k x) = penSum o m s.h s.P.part x
  zero : s.ini = false → ∀ x, ¬ s.h.has x → s.cache (penIdx k x) = 0 ∧ ∀ b, b < k → s.cache (benIdx k x b) = 0

/-- what does not change during the uncoarsening -/
structure NFix (s0 : DH) (par : Nat → Nat) (m mx : Nat) (h : DH) : Prop where
  mEq : s0.m = m
  parEq : h.par = par
  slots : ∀ e, s0.used e → (h.pins e).length ≤ mx

theorem opsSum_nil' (part : Assign) (i : Nat) : opsSum part i [] = 0 := rfl

theorem sumsCongr {part part' : Assign} (hp : ∀ e, e < m → h.een e = true → ∀ x ∈ h.edgePins e, part' x = part x) :
    (∀ x b, benSum o m h part' x b = benSum o m h part x b) ∧ ∀ x, penSum o m h part' x = penSum o m h part x := by
  constructor
  · intro x b
    unfold benSum
    refine Finset.sum_congr rfl (fun e he => ?_)
    by_cases hen : h.een e = true
    · rw [if_pos hen, if_pos hen]; exact netBen_congr (bcnt_congr (hp e (Finset.mem_range.1 he) hen) b)
    · rw [if_neg hen, if_neg hen]
  · intro x
    unfold penSum
    refine Finset.sum_congr rfl (fun e he => ?_)
    by_cases hen : h.een e = true
    · rw [if_pos hen, if_pos hen, netPen_part (hp e (Finset.mem_range.1 he) hen)]
      unfold netPen
      by_cases hx : x ∈ h.edgePins e
      · rw [if_pos hx, if_pos hx]
        cases part x with
        | none => rfl
        | some p => simp only; rw [bcnt_congr (hp e (Finset.mem_range.1 he) hen) p]
      · rw [if_neg hx, if_neg hx]
    · rw [if_neg hen, if_neg hen]

/-- everything that is used about a state in which batch `b` is to be uncontracted -/
theorem BInv.batchNodes (hS : Stat s0 par ver bi G) (hb : BatchOK par bi c b) (hI : BInv s0 par ver bi G V (c + 1) h U) {u v : Nat} (hm : (u, v) ∈ b) :
    h.has u ∧ v < h.n ∧ h.en v = false := by
  obtain ⟨j, hj⟩ := List.getElem?_of_mem hm
  obtain ⟨h1, h2, h3⟩ := hb.at hj
  have hp := (UInv.start hb hI).parent hS hb hj
  have hl := hS.live v h1
  refine ⟨⟨by rw [hI.core.nEq]; exact hp.1.1, hp.2.2.2.1⟩, by rw [hI.core.nEq]; exact hl.1.1, ?_⟩
  exact (hI.later v h1 (by omega)).en

theorem BatchOK.sndNodup (hb : BatchOK par bi c b) : (b.map Prod.snd).Nodup := by
  refine List.Nodup.map_on ?_ hb.nodup
  rintro ⟨u, v⟩ hx ⟨u', v'⟩ hy h
  have h' : v = v' := h
  subst h'
  have h1 := ((hb.mem u v).1 hx).2.1
  have h2 := ((hb.mem u' v).1 hy).2.1
  rw [← h1, ← h2]

/-- the blocks in front of the parallel loop -/
theorem assignBatch_ok (hS : Stat s0 par ver bi G) (hb : BatchOK par bi c b) (hI : BInv s0 par ver bi G V (c + 1) h U) {part0 : Assign}
    (hfull : ∀ v, h.has v → ∃ b, part0 v = some b) {ord : List (Nat × Nat)} (ho : ord.Perm b) :
    ∃ part, assignBatch ord part0 = some part ∧ (∀ u v, (u, v) ∈ b → part v = part0 u ∧ part u = part0 u) ∧ (∀ x, x ∉ b.map Prod.snd → part x = part0 x) := by
  have hd : ∀ p ∈ b, ∀ q ∈ b, p.1 ≠ q.2 := by
    rintro ⟨u, v⟩ hp ⟨u', v'⟩ hq h
    have h' : u = v' := h
    subst h'
    have h1 := (hI.batchNodes hS hb hp).1.2
    have h2 := (hI.batchNodes hS hb hq).2.2
    rw [h1] at h2; cases h2
  obtain ⟨part, h1, h2, h3⟩ := assignBatch_spec ord part0 ((ho.map _).nodup_iff.2 hb.sndNodup)
    (fun p hp q hq => hd p (ho.mem_iff.1 hp) q (ho.mem_iff.1 hq))
    (fun p hp => hfull p.1 (hI.batchNodes hS hb (u := p.1) (v := p.2) (ho.mem_iff.1 hp)).1)
  have h3' : ∀ x, x ∉ b.map Prod.snd → part x = part0 x := fun x hx => h3 x (fun h => hx ((ho.map _).mem_iff.1 h))
  refine ⟨part, h1, fun u v hm => ⟨h2 (u, v) (ho.mem_iff.2 hm), h3' u ?_⟩, h3'⟩
  intro hu
  obtain ⟨q, hq, hq'⟩ := List.mem_map.1 hu
  exact hd (u, v) hm q hq hq'.symm

theorem pu_steps (hc : Clean s0) (hS : Stat s0 par ver bi G) (hb : BatchOK par bi c b) (hver : ∀ v, par v ≠ v → bi v = c → ver v = V)
    {ini : Bool} {part : Assign} {cache0 : Nat → Int} {s t : PUSt σ}
    (hI : UInv s0 par ver bi G V c b s.x U) (hF : PFix s0 par m k mx b part s.x.h) (hP : PInv L o ini b part cache0 s) (h : PUSteps C k o ini b s t) :
    USteps b s.x t.x ∧ (∃ U', UInv s0 par ver bi G V c b t.x U') ∧ PFix s0 par m k mx b part t.x.h ∧ PInv L o ini b part cache0 t := by
  induction h with
  | refl => exact ⟨USteps.refl _, ⟨U, hI⟩, hF, hP⟩
  | tail s' s'' h h' ih =>
    obtain ⟨i1, ⟨U', i2⟩, i3, i4⟩ := ih
    obtain ⟨j1, j2, j3, j4⟩ := i4.step hc hS hb hver i2 i3 h'
    refine ⟨?_, j2, j3, j4⟩
    rcases j1 with j1 | j1
    · rw [j1]; exact i1
    · exact USteps.tail _ _ _ i1 j1

/-- in front of the parallel loop -/
theorem NInv.beginBatch (hc : Clean s0) (hS : Stat s0 par ver bi G) (hb : BatchOK par bi c b) {s : PHN σ} (hI : BInv s0 par ver bi G V (c + 1) s.h U)
    (hN : NInv L o s) (hF : NFix s0 par m mx s.h) {part : Assign} (hp1 : ∀ u v, (u, v) ∈ b → part v = s.P.part u ∧ part u = s.P.part u)
    (hp2 : ∀ x, x ∉ b.map Prod.snd → part x = s.P.part x) :
    PFix s0 par m k mx b part (s.begin part).x.h ∧ PInv L o s.ini b part s.cache (s.begin part) := by
  have hnot : ∀ x, s.h.has x → x ∉ b.map Prod.snd := by
    intro x hx hm
    obtain ⟨⟨u, v⟩, hq, hq'⟩ := List.mem_map.1 hm
    have hq2 : v = x := hq'
    subst hq2
    have := (hI.batchNodes hS hb hq).2.2
    rw [hx.2] at this; cases this
  have hsame : ∀ e, e < m → s.h.een e = true → ∀ x ∈ s.h.edgePins e, part x = s.P.part x := by
    intro e he hen x hx
    exact hp2 x (hnot x (hI.pinHas hc hS (by rw [hF.mEq]; exact he) hen hx))
  obtain ⟨hs1, hs2⟩ := sumsCongr (o := o) hsame
  refine ⟨⟨hF.mEq, hF.parEq, hF.slots, ?_⟩, ⟨rfl, ?_, ?_, ?_, fun _ _ => rfl, ?_, ?_, fun _ => ⟨rfl, fun _ => rfl⟩⟩⟩
  · intro u v hm
    obtain ⟨h1, h2⟩ := hp1 u v hm
    obtain ⟨bl, hbl⟩ := hN.full u (hI.batchNodes hS hb hm).1
    exact ⟨by rw [h1, h2], bl, hN.rng u bl hbl, by rw [h2, hbl]⟩
  · obtain ⟨T, hT, hT'⟩ := hN.con
    refine ⟨T, hT, fun e he b' hb' => ?_⟩
    rw [hT' e he b' hb']
    by_cases hen : s.h.een e = true
    · rw [if_pos hen]; show _ = if s.h.een e = true then _ else _
      rw [if_pos hen]; exact (bcnt_congr (hsame e he hen) b').symm
    · rw [if_neg hen]; show _ = if s.h.een e = true then _ else _
      rw [if_neg hen]
  · intro e he hen x hx
    have hh := hI.pinHas hc hS (by rw [hF.mEq]; exact he) hen hx
    obtain ⟨bl, hbl⟩ := hN.full x hh
    exact ⟨bl, hN.rng x bl hbl, by rw [hsame e he hen x hx]; exact hbl⟩
  · intro b' hb'
    show s.P.wt b' = wtSum s.h part b'
    rw [hN.wt b' hb']
    unfold wtSum
    refine Finset.sum_congr rfl (fun v hv => ?_)
    by_cases hen : s.h.en v = true
    · rw [hp2 v (hnot v ⟨Finset.mem_range.1 hv, hen⟩)]
    · simp [hen]
  · intro hi x b' hb'
    show s.cache _ + ∑ j ∈ Finset.range b.length, opsSum part _ [] = benSum o m s.h part x b'
    rw [hs1, hN.ben hi x b' hb']; simp [opsSum_nil']
  · intro hi x
    show s.cache _ + ∑ j ∈ Finset.range b.length, opsSum part _ [] = penSum o m s.h part x
    rw [hs2, hN.pen hi x]; simp [opsSum_nil']

/-- **uncontraction of a batch** -/
theorem NInv.batch (hc : Clean s0) (hS : Stat s0 par ver bi G) (hb : BatchOK par bi c b) (hver : ∀ v, par v ≠ v → bi v = c → ver v = V)
    {s s' : PHN σ} (hI : BInv s0 par ver bi G V (c + 1) s.h U) (hN : NInv L o s) (hF : NFix s0 par m mx s.h) (hu : PUncontract C k o b s s') :
    Dyn.Uncontract b s.h s'.h ∧ NInv L o s' ∧ NFix s0 par m mx s'.h ∧ s'.ini = s.ini ∧ (∀ u v, (u, v) ∈ b → s'.P.part v = s.P.part u) ∧
      (∀ x, x ∉ b.map Prod.snd → s'.P.part x = s.P.part x) ∧ s'.P.wt = s.P.wt := by
  obtain ⟨ord, part, t, ho, ha, hst, hd, htodo, rfl⟩ := hu
  obtain ⟨part', ha', hp1, hp2⟩ := assignBatch_ok hS hb hI hN.full ho
  rw [ha] at ha'
  obtain rfl : part = part' := by simpa using ha'
  obtain ⟨hF0, hP0⟩ := hN.beginBatch hc hS hb hI hF hp1 hp2
  obtain ⟨h1, ⟨U', h2⟩, h3, h4⟩ := pu_steps hc hS hb hver (UInv.start hb hI) hF0 hP0 hst
  have hB := h2.finish hb hd
  have hcon := h4.con
  have hwt : t.P.wt = s.P.wt := by
    have : ∀ {s t : PUSt σ}, PUSteps C k o (PHN.ini ‹PHN σ›) b s t → t.P.wt = s.P.wt := by
      intro s t h
      induction h with
      | refl => rfl
      | tail s' s'' h h' ih => cases h' <;> exact ih
    exact this hst
  have hrng : ∀ v b', part v = some b' → b' < k := by
    intro v b' hv
    by_cases hm : v ∈ b.map Prod.snd
    · obtain ⟨⟨u, v'⟩, hq, hq'⟩ := List.mem_map.1 hm
      have hq2 : v' = v := hq'
      subst hq2
      rw [(hp1 u v' hq).1] at hv
      exact hN.rng u b' hv
    · rw [hp2 v hm] at hv; exact hN.rng v b' hv
  have hfull : ∀ v, t.x.h.has v → ∃ b, part v = some b := by
    intro v hv
    by_cases hm : v ∈ b.map Prod.snd
    · obtain ⟨⟨u, v'⟩, hq, hq'⟩ := List.mem_map.1 hm
      have hq2 : v' = v := hq'
      subst hq2
      obtain ⟨bl, hbl⟩ := hN.full u (hI.batchNodes hS hb hq).1
      exact ⟨bl, by rw [(hp1 u v' hq).1, hbl]⟩
    · rw [hp2 v hm]
      refine hN.full v ⟨by rw [hI.core.nEq, ← hB.core.nEq]; exact hv.1, ?_⟩
      by_cases hpv : par v = v
      · have hvn : v < s0.n := by rw [← hB.core.nEq]; exact hv.1
        rw [(hI.core.root v hpv).2.2 hvn, ← (hB.core.root v hpv).2.2 hvn]; exact hv.2
      · rcases Nat.lt_trichotomy (bi v) c with hlt | heq | hgt
        · have := (hB.later v hpv hlt).en
          rw [hv.2] at this; cases this
        · exact absurd (List.mem_map.2 ⟨(par v, v), (hb.mem _ _).2 ⟨hpv, rfl, heq⟩, rfl⟩) hm
        · exact (hI.undone v hpv (by omega)).en
  have hsum : ∀ i, ∑ j ∈ Finset.range b.length, opsSum part i (t.todo j) = 0 := fun i =>
    Finset.sum_eq_zero (fun j _ => by rw [htodo j]; rfl)
  refine ⟨⟨t.x.tk, t.x.flag, h1, hd⟩, ⟨?_, ?_, ?_, ?_, ?_, ?_, ?_⟩, ⟨h3.mEq, h3.parEq, h3.slots⟩, rfl, ?_, ?_, hwt⟩
  · rw [h4.parts]; exact hcon
  · rw [h4.parts]; exact hrng
  · rw [h4.parts]; exact hfull
  · rw [h4.parts]; exact h4.wt
  · intro hi x b' hb'
    have := h4.ben hi x b' hb'
    rw [hsum, add_zero] at this
    rw [h4.parts]; exact this
  · intro hi x
    have := h4.pen hi x
    rw [hsum, add_zero] at this
    rw [h4.parts]; exact this
  · intro hi x hx
    rw [show (⟨t.x.h, t.P, t.cache, s.ini⟩ : PHN σ).cache = s.cache from (h4.off hi).1]
    refine hN.zero hi x (fun hx' => hx ?_)
    refine ⟨by rw [hB.core.nEq, ← hI.core.nEq]; exact hx'.1, ?_⟩
    have hxn : x < s0.n := by rw [← hI.core.nEq]; exact hx'.1
    by_cases hpv : par x = x
    · rw [(hB.core.root x hpv).2.2 hxn, ← (hI.core.root x hpv).2.2 hxn]; exact hx'.2
    · rcases Nat.lt_or_ge (bi x) (c + 1) with hlt | hge
      · have := (hI.later x hpv hlt).en
        rw [hx'.2] at this; cases this
      · exact (hB.undone x hpv (by omega)).en
  · intro u v hm
    show t.P.part v = _
    rw [h4.parts]; exact (hp1 u v hm).1
  · intro x hx
    show t.P.part x = _
    rw [h4.parts]; exact hp2 x hx

end Dyn
end Verif
