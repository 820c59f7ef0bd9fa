import Verif.Lemmas.Dyn28
/-!
# The objective function during the uncoarsening
-/
namespace Verif
namespace Dyn
open SMap (wr)

/-- `ρ` is constant on the clusters that existed in version `k` -/
def Resp (par ver : Nat → Nat) (k : Nat) (ρ : Nat → Nat) : Prop := ∀ v, par v ≠ v → ver v ≤ k → ρ (par v) = ρ v

/-- blocks of the pins -/
def img (s0 : DH) (ρ : Nat → Nat) (e : Nat) : Finset Nat := ((s0.edgePins e).map ρ).toFinset

/-- the nets removed in front of version `V`: single-pin nets and parallel nets of their time -/
def PastOK (s0 : DH) (par ver : Nat → Nat) : Nat → List RemovedNets → (Nat → Bool) → Prop
  | 0, [], _ => True
  | k + 1, R :: rest, een => (R.map Prod.fst).Nodup ∧ (∀ p ∈ R, p.1 < s0.m ∧ een p.1 = false) ∧
      (∀ e, (e, none) ∈ R → ∀ ρ, Resp par ver k ρ → (img s0 ρ e).card ≤ 1) ∧
      (∀ e r, (e, some r) ∈ R → r < s0.m ∧ een r = true ∧ ∀ ρ, Resp par ver k ρ → img s0 ρ e = img s0 ρ r) ∧
      PastOK s0 par ver k rest (fun e => een e || (R.map Prod.fst).contains e)
  | _, _, _ => False

variable {s0 : DH} {par ver par' ver' : Nat → Nat}

theorem PastOK.congr {V : Nat} {l : List RemovedNets} {een : Nat → Bool} (h : PastOK s0 par ver V l een)
    (hR : ∀ k < V, ∀ ρ, Resp par' ver' k ρ → Resp par ver k ρ) : PastOK s0 par' ver' V l een := by
  induction V generalizing l een with
  | zero => cases l with
    | nil => trivial
    | cons _ _ => exact h.elim
  | succ k ih => cases l with
    | nil => exact h.elim
    | cons R rest =>
      obtain ⟨h1, h2, h3, h4, h5⟩ := h
      refine ⟨h1, h2, fun e he ρ hρ => h3 e he ρ (hR k (by omega) ρ hρ), ?_, ih h5 (fun j hj => hR j (by omega))⟩
      intro e r he
      obtain ⟨a1, a2, a3⟩ := h4 e r he
      exact ⟨a1, a2, fun ρ hρ => a3 ρ (hR k (by omega) ρ hρ)⟩

/-- weighted sum over the enabled nets -/
def wSum (m : Nat) (een : Nat → Bool) (ew g : Nat → Int) : Int := ∑ e ∈ (Finset.range m).filter (fun e => een e = true), ew e * g e

theorem wSum_undo_one {m : Nat} {een : Nat → Bool} {ew g : Nat → Int} {R : RemovedNets} (hnd : (R.map Prod.fst).Nodup)
    (h1 : ∀ p ∈ R, p.1 < m ∧ een p.1 = false) (h2 : ∀ e, (e, none) ∈ R → g e = 0)
    (h3 : ∀ e r, (e, some r) ∈ R → r < m ∧ een r = true ∧ g e = g r) :
    wSum m (fun e => een e || (R.map Prod.fst).contains e) (fun e => ew e - addedWeight ew R e) g = wSum m een ew g := by
  unfold wSum
  set S := (Finset.range m).filter (fun e => een e = true) with hS
  have hunion : (Finset.range m).filter (fun e => (een e || (R.map Prod.fst).contains e) = true) = S ∪ (R.map Prod.fst).toFinset := by
    ext e
    rw [Finset.mem_filter, Finset.mem_union, hS, Finset.mem_filter, Finset.mem_range, List.mem_toFinset, Bool.or_eq_true, List.contains_iff_mem]
    constructor
    · rintro ⟨a, b | b⟩
      · exact Or.inl ⟨a, b⟩
      · exact Or.inr b
    · rintro (⟨a, b⟩ | b)
      · exact ⟨a, Or.inl b⟩
      · rw [List.mem_map] at b
        obtain ⟨p, hp, rfl⟩ := b
        exact ⟨(h1 p hp).1, Or.inr (List.mem_map.2 ⟨p, hp, rfl⟩)⟩
  have hdisj : Disjoint S (R.map Prod.fst).toFinset := by
    rw [Finset.disjoint_left]
    intro e he hr
    rw [List.mem_toFinset, List.mem_map] at hr
    obtain ⟨p, hp, rfl⟩ := hr
    rw [hS, Finset.mem_filter, (h1 p hp).2] at he
    exact absurd he.2 (by decide)
  have hzero : ∀ e ∈ R.map Prod.fst, addedWeight ew R e = 0 := by
    intro e he
    rw [List.mem_map] at he
    obtain ⟨p, hp, rfl⟩ := he
    have : R.filter (fun q => q.2 == some p.1) = [] := by
      rw [List.filter_eq_nil_iff]
      intro q hq hb
      have hb : q.2 = some p.1 := by simpa using hb
      have := (h3 q.1 p.1 (by rw [← hb]; exact hq)).2.1
      rw [(h1 p hp).2] at this; cases this
    unfold addedWeight
    rw [this]; rfl
  rw [hunion, Finset.sum_union hdisj]
  have hsplit : ∑ e ∈ S, (ew e - addedWeight ew R e) * g e = ∑ e ∈ S, ew e * g e - ∑ e ∈ S, addedWeight ew R e * g e := by
    rw [← Finset.sum_sub_distrib]
    refine Finset.sum_congr rfl ?_
    intro e _
    exact Int.sub_mul _ _ _
  rw [hsplit, added_sum ew g S R (by
    intro e r he
    rw [hS, Finset.mem_filter, Finset.mem_range]
    exact ⟨(h3 e r he).1, (h3 e r he).2.1⟩)]
  have hR : ∑ e ∈ (R.map Prod.fst).toFinset, (ew e - addedWeight ew R e) * g e = (R.map (viaRep ew g)).sum := by
    rw [List.sum_toFinset _ hnd, List.map_map]
    congr 1
    refine List.map_congr_left ?_
    rintro ⟨e, o⟩ hp
    show (ew e - addedWeight ew R e) * g e = _
    rw [hzero e (List.mem_map.2 ⟨_, hp, rfl⟩), Int.sub_zero]
    cases o with
    | none => show _ = (0 : Int); rw [h2 e hp, Int.mul_zero]
    | some r => show _ = ew e * g r; rw [(h3 e r hp).2.2]
  rw [hR]
  omega

theorem wSum_undo {V : Nat} {l : List RemovedNets} {een : Nat → Bool} {ew : Nat → Int} {ρ : Nat → Nat} {f : Finset Nat → Int}
    (hf : ∀ S : Finset Nat, S.card ≤ 1 → f S = 0) (h : PastOK s0 par ver V l een) (hρ : ∀ k < V, Resp par ver k ρ) :
    wSum s0.m (undoE l een) (undoW l ew) (fun e => f (img s0 ρ e)) = wSum s0.m een ew (fun e => f (img s0 ρ e)) := by
  induction V generalizing l een ew with
  | zero => cases l with
    | nil => rfl
    | cons _ _ => exact h.elim
  | succ k ih => cases l with
    | nil => exact h.elim
    | cons R rest =>
      obtain ⟨h1, h2, h3, h4, h5⟩ := h
      refine (ih h5 (fun j hj => hρ j (by omega)) (ew := fun e => ew e - addedWeight ew R e)).trans ?_
      exact wSum_undo_one h1 h2 (fun e he => hf _ (h3 e he ρ (hρ k (by omega)))) (fun e r he =>
        ⟨(h4 e r he).1, (h4 e r he).2.1, by rw [(h4 e r he).2.2 ρ (hρ k (by omega))]⟩)

/-- the blocks of the pins of a contracted net are the blocks of the original pins -/
theorem ContractedBy.img {s : DH} (h : ContractedBy s0 s par) (ha : ∀ v, s0.live v → ∃ i, par (par^[i] v) = par^[i] v) {ρ : Nat → Nat} (hρ : ∀ v, ρ (par v) = ρ v)
    (hl : ∀ v, s0.live v → s0.live (par v)) (hp : ∀ e, s0.used e → ∀ v ∈ s0.edgePins e, s0.live v)
    {e : Nat} (hm : e < s0.m) (he : s.een e = true) (he0 : s0.een e = true) : ((s.edgePins e).map ρ).toFinset = Dyn.img s0 ρ e := by
  have hit : ∀ i v, ρ (par^[i] v) = ρ v := by
    intro i
    induction i with
    | zero => intro v; rfl
    | succ i ih => intro v; rw [Function.iterate_succ_apply', hρ, ih]
  ext b
  unfold Dyn.img
  rw [List.mem_toFinset, List.mem_toFinset, List.mem_map, List.mem_map]
  constructor
  · rintro ⟨u, hu, rfl⟩
    obtain ⟨v, h1, _, i, h2⟩ := (h.pins e hm he u).1 hu
    exact ⟨v, h1, by rw [← h2, hit]⟩
  · rintro ⟨v, hv, rfl⟩
    obtain ⟨i, hi⟩ := ha v (hp e ⟨hm, he0⟩ v hv)
    exact ⟨par^[i] v, (h.pins e hm he _).2 ⟨v, hv, hi, i, rfl⟩, hit i v⟩

theorem netSum_wSum {s : DH} (hm : s.m = s0.m) (h : ContractedBy s0 s par) (ha : ∀ v, s0.live v → ∃ i, par (par^[i] v) = par^[i] v) {ρ : Nat → Nat} (hρ : ∀ v, ρ (par v) = ρ v)
    (hl : ∀ v, s0.live v → s0.live (par v)) (hp : ∀ e, s0.used e → ∀ v ∈ s0.edgePins e, s0.live v) (he0 : ∀ e, s.een e = true → s0.een e = true) (f : Finset Nat → Int) :
    netSum s ρ f = wSum s0.m s.een s.ew (fun e => f (img s0 ρ e)) := by
  classical
  unfold netSum wSum
  rw [hm]
  refine Finset.sum_congr ?_ ?_
  · ext e; simp
  · intro e he
    rw [Finset.mem_filter, Finset.mem_range] at he
    rw [h.img ha hρ hl hp he.1 he.2 (he0 e he.2)]

end Dyn
end Verif
