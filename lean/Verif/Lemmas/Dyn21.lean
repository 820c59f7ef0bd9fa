import Verif.Lemmas.Dyn20
/-!
# Invariant of the uncoarsening phase
-/
namespace Verif
namespace Dyn
open SMap (wr)

/-- what is known about the complete history: forest `par` with versions `ver` and batch indices `bi`, logs of `G` -/
structure Stat (s0 : DH) (par ver bi : Nat → Nat) (G : Gh) : Prop where
  live : ∀ v, par v ≠ v → s0.live v ∧ s0.live (par v)
  log : ∀ e, LogOK (fun x => s0.orig x e) par (fun v => G.one v e) (fun v => G.two v e)
  logU : ∀ v e, G.one v e = true ∨ G.two v e = true → s0.used e ∧ ∀ k < ver v, G.rem k e = false
  comp : ∀ v e, par v ≠ v → G.isIn s0 par v e → (∀ k < ver v, G.rem k e = false) → G.one v e = true ∨ G.two v e = true
  oneIn : ∀ v e, G.one v e = true → s0.orig (par v) e ∨ ∃ w, par w = par v ∧ w ≠ par w ∧ G.two w e = true ∧ bi w ≤ bi v
  up : ∀ v, par v ≠ v → par (par v) ≠ par v → bi v < bi (par v)
  once : ∀ k j e, G.rem k e = true → G.rem j e = true → j = k

/-- changing part of the history: nodes that are still merged, nodes that are cut off, forest, removals and the
entries of the logs that are not yet undone -/
structure UG where
  mg : Nat → Bool
  mid : Nat → Bool
  kids : Nat → List Nat
  sg : Nat → List Nat
  ops : Nat → List Op
  one : Nat → Nat → Bool
  two : Nat → Nat → Bool

/-- removing an entry from a log -/
def clr (f : Nat → Nat → Bool) (v e : Nat) : Nat → Nat → Bool := fun x e' => if x = v ∧ e' = e then false else f x e'

theorem clr_col (f : Nat → Nat → Bool) (v e : Nat) : (fun x => clr f v e x e) = wr (fun x => f x e) v false := by
  funext x
  unfold clr
  by_cases h : x = v
  · subst h; rw [if_pos ⟨rfl, rfl⟩, wr_same]
  · rw [if_neg (fun h' => h h'.1), wr_other _ _ h]

theorem clr_ne (f : Nat → Nat → Bool) (v : Nat) {e e' : Nat} (h : e' ≠ e) : (fun x => clr f v e x e') = fun x => f x e' := by
  funext x
  unfold clr
  rw [if_neg (fun h' => h h'.2)]

theorem clr_other (f : Nat → Nat → Bool) {v x : Nat} (h : x ≠ v) (e e' : Nat) : clr f v e x e' = f x e' := by
  unfold clr
  rw [if_neg (fun h' => h h'.1)]

theorem clr_true {f : Nat → Nat → Bool} {v e x e' : Nat} : clr f v e x e' = true ↔ f x e' = true ∧ ¬ (x = v ∧ e' = e) := by
  unfold clr
  split <;> simp_all

/-- what holds at any time of the uncoarsening phase while `V` removals of nets are still to be undone -/
structure UCore (s0 : DH) (par ver bi : Nat → Nat) (G : Gh) (V : Nat) (h : DH) (U : UG) : Prop where
  nEq : h.n = s0.n
  mEq : h.m = s0.m
  biEq : h.bi = bi
  VEq : h.V = V
  tree : Tree s0.n U.mg par U.kids U.sg
  ina : INAOK s0.n s0.live U.mg U.mid par U.kids U.sg ver G.keep s0.ina.vr s0.ina.active U.ops V h.ina
  log : ∀ e, LogOK (fun x => s0.orig x e) par (fun v => U.one v e) (fun v => U.two v e)
  pins : ∀ e, s0.used e → PinsOK (fun x => s0.orig x e) par (fun v => U.one v e) (fun v => U.two v e) (h.pins e) (h.size e)
  sorted : ∀ e, s0.used e → ((h.pins e).drop (h.size e)).Pairwise (fun a b => bi b ≤ bi a)
  other : ∀ e, ¬ s0.used e → (h.pins e).take (h.size e) = s0.edgePins e ∧ h.size e = s0.size e
  oneLe : ∀ v e, U.one v e = true → G.one v e = true
  twoLe : ∀ v e, U.two v e = true → G.two v e = true
  root : ∀ v, par v = v → U.mg v = false ∧ U.mid v = false ∧ (v < s0.n → h.en v = s0.en v)
  wtS : ∀ u, h.wt u = s0.wt u + ∑ v ∈ inside s0 par h.en u, h.wt v
  een : ∀ e, h.een e = true ↔ s0.een e = true ∧ ∀ k < V, G.rem k e = false
  rem : RemOK G.rem V h.removed
  ew : undoW h.removed h.ew = s0.ew
  een0 : undoE h.removed h.een = s0.een

/-- a node that is still contracted -/
structure Later (G : Gh) (h : DH) (U : UG) (v : Nat) : Prop where
  mg : U.mg v = true
  mid : U.mid v = false
  en : h.en v = false
  one : ∀ e, U.one v e = G.one v e
  two : ∀ e, U.two v e = G.two v e

/-- a node that is not contracted any more -/
structure Undone (h : DH) (U : UG) (v : Nat) : Prop where
  mg : U.mg v = false
  mid : U.mid v = false
  en : h.en v = true
  one : ∀ e, U.one v e = false
  two : ∀ e, U.two v e = false

/-- between batches: the batches from index `c` on are undone -/
structure BInv (s0 : DH) (par ver bi : Nat → Nat) (G : Gh) (V c : Nat) (h : DH) (U : UG) : Prop where
  core : UCore s0 par ver bi G V h U
  later : ∀ v, par v ≠ v → bi v < c → Later G h U v
  undone : ∀ v, par v ≠ v → c ≤ bi v → Undone h U v

/-- the batch with index `c` -/
structure BatchOK (par bi : Nat → Nat) (c : Nat) (b : List (Nat × Nat)) : Prop where
  mem : ∀ u v, (u, v) ∈ b ↔ par v ≠ v ∧ par v = u ∧ bi v = c
  nodup : b.Nodup
  ne : b ≠ []

/-- a memento while its calls are executed; `cur` is a net with a call of the second kind that is not finished -/
structure CallsOK (G : Gh) (h : DH) (flag : Nat → Bool) (U : UG) (v : Nat) (cs : List Call) (cur : Option Nat) : Prop where
  mg : U.mg v = false
  mid : U.mid v = false
  en : h.en v = false
  nodup : cs.Nodup
  two : ∀ e, U.two v e = true ↔ Call.two e ∈ cs ∨ cur = some e
  cur : ∀ e, cur = some e → Call.two e ∉ cs
  one : ∀ e, Call.one e ∈ cs → G.one v e = true
  all : ∀ e, G.one v e = true → Call.one e ∈ cs ∨ flag e = true

/-- a memento `(u, v)` of the batch -/
def TkOK (G : Gh) (h : DH) (flag : Nat → Bool) (U : UG) (u v : Nat) : Tk → Prop
  | .wait => U.mg v = true ∧ U.mid v = false ∧ h.en v = false ∧ ∀ e, U.two v e = G.two v e
  | .cut => U.mg v = false ∧ U.mid v = true ∧ h.en v = false ∧ ∀ e, U.two v e = G.two v e
  | .nets cs => CallsOK G h flag U v cs none
  | .scan e p cs => CallsOK G h flag U v cs (some e) ∧ p ≤ h.size e ∧ u ∈ (h.pins e).take p
  | .write e p cs => CallsOK G h flag U v cs (some e) ∧ p < h.size e ∧ (h.pins e).getD p 0 = u
  | .resize e p cs => CallsOK G h flag U v cs none ∧ p = h.size e ∧ flag e = true ∧ G.one v e = true
  | .lost => False
  | .done => U.mg v = false ∧ U.mid v = false ∧ h.en v = true ∧ (∀ e, U.two v e = false) ∧ ∀ e, G.one v e = true → flag e = true

/-- invariant while batch `c` is undone -/
structure UInv (s0 : DH) (par ver bi : Nat → Nat) (G : Gh) (V c : Nat) (b : List (Nat × Nat)) (s : USt) (U : UG) : Prop where
  core : UCore s0 par ver bi G V s.h U
  later : ∀ v, par v ≠ v → bi v < c → Later G s.h U v
  undone : ∀ v, par v ≠ v → c < bi v → Undone s.h U v
  tk : ∀ j u v, b[j]? = some (u, v) → TkOK G s.h s.flag U u v (s.tk j)
  out : ∀ j, b[j]? = none → s.tk j = .wait
  off : ∀ v e, par v ≠ v → bi v = c → s.flag e = false → U.one v e = G.one v e
  resU : ∀ j j' e p p' cs cs', s.tk j = .resize e p cs → s.tk j' = .resize e p' cs' → j = j'
  grown : ∀ e, s.flag e = true → (∀ j p cs, s.tk j ≠ .resize e p cs) → ∀ v, par v ≠ v → bi v = c → U.one v e = false

theorem CallsOK.stable {G : Gh} {h h' : DH} {flag flag' : Nat → Bool} {U U' : UG} {v : Nat} {cs : List Call} {cur : Option Nat}
    (hp : CallsOK G h flag U v cs cur) (h1 : h'.en v = h.en v) (h2 : U'.mg v = U.mg v) (h3 : U'.mid v = U.mid v) (h4 : ∀ e, U'.two v e = U.two v e)
    (hf : ∀ e, flag e = true → flag' e = true) : CallsOK G h' flag' U' v cs cur := by
  refine ⟨by rw [h2]; exact hp.mg, by rw [h3]; exact hp.mid, by rw [h1]; exact hp.en, hp.nodup, ?_, hp.cur, hp.one, ?_⟩
  · intro e; rw [h4]; exact hp.two e
  · intro e he
    rcases hp.all e he with h | h
    · exact Or.inl h
    · exact Or.inr (hf e h)

theorem TkOK.stable {G : Gh} {h h' : DH} {flag flag' : Nat → Bool} {U U' : UG} {u v : Nat} {t : Tk} (hp : TkOK G h flag U u v t)
    (h1 : h'.en v = h.en v) (h2 : U'.mg v = U.mg v) (h3 : U'.mid v = U.mid v) (h4 : ∀ e, U'.two v e = U.two v e)
    (hf : ∀ e, flag e = true → flag' e = true)
    (hsc : ∀ e p cs, t = .scan e p cs → p ≤ h.size e → u ∈ (h.pins e).take p → p ≤ h'.size e ∧ u ∈ (h'.pins e).take p)
    (hwr : ∀ e p cs, t = .write e p cs → p < h.size e → (h.pins e).getD p 0 = u → p < h'.size e ∧ (h'.pins e).getD p 0 = u)
    (hrs : ∀ e p cs, t = .resize e p cs → h'.size e = h.size e) : TkOK G h' flag' U' u v t := by
  cases t with
  | wait =>
    obtain ⟨a, b, c, d⟩ := hp
    exact ⟨by rw [h2]; exact a, by rw [h3]; exact b, by rw [h1]; exact c, fun e => by rw [h4]; exact d e⟩
  | cut =>
    obtain ⟨a, b, c, d⟩ := hp
    exact ⟨by rw [h2]; exact a, by rw [h3]; exact b, by rw [h1]; exact c, fun e => by rw [h4]; exact d e⟩
  | nets cs => exact CallsOK.stable hp h1 h2 h3 h4 hf
  | scan e p cs =>
    obtain ⟨a, b, c⟩ := hp
    exact ⟨a.stable h1 h2 h3 h4 hf, hsc e p cs rfl b c⟩
  | write e p cs =>
    obtain ⟨a, b, c⟩ := hp
    exact ⟨a.stable h1 h2 h3 h4 hf, hwr e p cs rfl b c⟩
  | resize e p cs =>
    obtain ⟨a, b, c, d⟩ := hp
    exact ⟨a.stable h1 h2 h3 h4 hf, by rw [hrs e p cs rfl]; exact b, hf e c, d⟩
  | lost => exact hp.elim
  | done =>
    obtain ⟨a, b, c, d, g⟩ := hp
    exact ⟨by rw [h2]; exact a, by rw [h3]; exact b, by rw [h1]; exact c, fun e => by rw [h4]; exact d e, fun e he => hf e (g e he)⟩

variable {s0 : DH} {par ver bi : Nat → Nat} {G : Gh} {V c : Nat} {b : List (Nat × Nat)} {s s' : USt} {U : UG}

theorem BatchOK.at (hb : BatchOK par bi c b) {j u v : Nat} (hj : b[j]? = some (u, v)) : par v ≠ v ∧ par v = u ∧ bi v = c :=
  (hb.mem u v).1 (List.mem_of_getElem? hj)

theorem BatchOK.inj (hb : BatchOK par bi c b) {j j' u u' v : Nat} (hj : b[j]? = some (u, v)) (hj' : b[j']? = some (u', v)) : j = j' := by
  have h1 := (hb.at hj).2.1
  have h2 := (hb.at hj').2.1
  rw [h1] at h2
  subst h2
  obtain ⟨k1, k2⟩ := List.getElem?_eq_some_iff.1 hj
  obtain ⟨k3, k4⟩ := List.getElem?_eq_some_iff.1 hj'
  exact (hb.nodup.getElem_inj_iff).1 (k2.trans k4.symm)

theorem BatchOK.idx (hb : BatchOK par bi c b) {v : Nat} (h1 : par v ≠ v) (h2 : bi v = c) : ∃ j : Nat, b[j]? = some (par v, v) :=
  List.getElem?_of_mem ((hb.mem (par v) v).2 ⟨h1, rfl, h2⟩)

/-- the partner of a memento is present -/
theorem UInv.parent (hS : Stat s0 par ver bi G) (hb : BatchOK par bi c b) (hI : UInv s0 par ver bi G V c b s U) {j u v : Nat} (hj : b[j]? = some (u, v)) :
    s0.live u ∧ U.mg u = false ∧ U.mid u = false ∧ s.h.en u = true ∧ (∀ e, U.one u e = false) ∧ ∀ e, U.two u e = false := by
  obtain ⟨h1, h2, h3⟩ := hb.at hj
  have hl := hS.live v h1
  rw [h2] at hl
  refine ⟨hl.2, ?_⟩
  by_cases hu : par u = u
  · obtain ⟨k1, k2, k3⟩ := hI.core.root u hu
    refine ⟨k1, k2, by rw [k3 hl.2.1]; exact hl.2.2, ?_, ?_⟩
    · intro e
      rw [bool_false_iff]; intro h
      exact (hI.core.log e |>.inn u (Or.inl h)).2 hu
    · intro e
      rw [bool_false_iff]; intro h
      exact (hI.core.log e |>.inn u (Or.inr h)).2 hu
  · have h4 := hS.up v h1 (by rw [h2]; exact hu)
    rw [h2, h3] at h4
    have := hI.undone u hu h4
    exact ⟨this.mg, this.mid, this.en, this.one, this.two⟩

/-- the children of the nodes in the list of `v` are still merged -/
theorem UInv.below (hS : Stat s0 par ver bi G) (hI : UInv s0 par ver bi G V c b s U) {v : Nat} (h1 : par v ≠ v) (h3 : bi v = c) :
    ∀ y ∈ U.sg v, ∀ w, par w = y → w ≠ y → U.mg w = true := by
  intro y hy w hw hne
  have hpw : par w ≠ w := by rw [hw]; exact Ne.symm hne
  have hy2 : par y ≠ y ∧ bi y ≤ c := by
    by_cases hyv : y = v
    · subst hyv; exact ⟨h1, Nat.le_of_eq h3⟩
    · have hm := hI.core.tree.inner_mg hy hyv
      have hp := hI.core.tree.par_ne hm
      refine ⟨hp, ?_⟩
      by_contra hlt
      have := (hI.undone y hp (by omega)).mg
      rw [hm] at this; cases this
  have h4 := hS.up w hpw (by rw [hw]; exact hy2.1)
  rw [hw] at h4
  exact (hI.later w hpw (by omega)).mg

theorem UInv.start (hb : BatchOK par bi c b) {h : DH} (hI : BInv s0 par ver bi G V (c + 1) h U) :
    UInv s0 par ver bi G V c b ⟨h, fun _ => .wait, fun _ => false⟩ U := by
  refine ⟨hI.core, fun v h1 h2 => hI.later v h1 (by omega), fun v h1 h2 => hI.undone v h1 (by omega), ?_, fun _ _ => rfl, ?_, ?_, ?_⟩
  · intro j u v hj
    obtain ⟨h1, h2, h3⟩ := hb.at hj
    have := hI.later v h1 (by omega)
    exact ⟨this.mg, this.mid, this.en, this.two⟩
  · intro v e h1 h2 _
    exact (hI.later v h1 (by omega)).one e
  · intro j j' e p p' cs cs' h; cases h
  · intro e h; cases h

/-- the batch is undone -/
theorem UInv.finish (hb : BatchOK par bi c b) (hI : UInv s0 par ver bi G V c b s U) (hd : ∀ j < b.length, s.tk j = .done) :
    BInv s0 par ver bi G V c s.h U := by
  refine ⟨hI.core, fun v h1 h2 => hI.later v h1 h2, ?_⟩
  intro v h1 h2
  rcases Nat.lt_or_ge c (bi v) with h3 | h3
  · exact hI.undone v h1 h3
  · have h4 : bi v = c := by omega
    obtain ⟨j, hj⟩ := hb.idx h1 h4
    have h5 := hI.tk j _ v hj
    rw [hd j (List.getElem?_eq_some_iff.1 hj).1] at h5
    obtain ⟨k1, k2, k3, k4, k5⟩ := h5
    refine ⟨k1, k2, k3, ?_, k4⟩
    intro e
    by_cases ho : G.one v e = true
    · refine hI.grown e (k5 e ho) ?_ v h1 h4
      intro j' p cs hj'
      rcases Nat.lt_or_ge j' b.length with h | h
      · rw [hd j' h] at hj'; cases hj'
      · rw [hI.out j' (List.getElem?_eq_none h)] at hj'; cases hj'
    · rw [bool_false_iff]; exact fun h => ho (hI.core.oneLe v e h)

end Dyn
end Verif
