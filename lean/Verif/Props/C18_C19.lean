import Verif.Lemmas.FixedV2
/-!
# C18  Fixed vertices: contraction is conservative and reversible
# C19  Fixed vertices survive coarsening
-/
namespace Verif
open FVS NLevel

/-! ### Specification -/

/-- The fixed vertex support says what `fixed` says: block of each node, and total weights (with node
weights `nw`). -/
structure FVS.Ok (nodes : List Nat) (nw : Nat → Int) (fixed : Nat → Option Nat) (s : FVS) : Prop where
  block : ∀ x, (s.data x).block = fixed x
  bw : ∀ b, s.bw b = (nodes.map (fun x => if fixed x = some b then nw x else 0)).sum
  total : s.total = (nodes.map (fun x => if (fixed x).isSome then nw x else 0)).sum

/-- The contraction of `v` onto `u` is allowed: small enough, not fixed to different blocks, and the
weight fixed to a block does not exceed its limit. -/
def NLevel.Allowed (s : NLevel) (u v : Nat) (lim : Int) : Prop :=
  s.nw u + s.nw v ≤ lim ∧
  match (s.fv.data u).block, (s.fv.data v).block with
  | none, none => True
  | none, some b => s.fv.bw b + s.nw u ≤ s.fv.maxw b
  | some b, none => s.fv.bw b + s.nw v ≤ s.fv.maxw b
  | some b, some c => b = c

/-- `y` has been contracted (transitively) onto `x` -/
def NLevel.Desc (s : NLevel) (x y : Nat) : Prop := Relation.ReflTransGen (fun a b => (a, b) ∈ s.tree) x y

/-! ### Helper lemmas -/

/-- state of the parallel loop over the nodes -/
structure FoldOk (nodesC : List Nat) (nwC : Nat → Int) (com : Nat → Nat) (fixed : Nat → Option Nat) (l : List Nat)
    (s : FVS) : Prop where
  block : ∀ y b, (s.data y).block = some b ↔ ∃ x ∈ l, com x = y ∧ fixed x = some b
  data : ∀ y, (s.data y).block.isSome → (s.data y).cnt = 1 ∧ (s.data y).weight = nwC y
  cnt0 : ∀ y, (s.data y).block = none → (s.data y).cnt = 0
  bw : ∀ b, s.bw b = wsumL nodesC (fun y => if (s.data y).block = some b then nwC y else 0)
  total : s.total = wsumL nodesC (fun y => if (s.data y).block.isSome then nwC y else 0)

theorem foldOk_nil (nodesC : List Nat) (nwC : Nat → Int) (com : Nat → Nat) (fixed : Nat → Option Nat) (k : Nat)
    (maxw : Nat → Int) : FoldOk nodesC nwC com fixed [] (FVS.create k maxw) := by
  refine ⟨fun y b => by simp [FVS.create], fun y h => by simp [FVS.create] at h, fun _ _ => rfl, fun b => ?_, ?_⟩
  · simp [FVS.create, wsumL]
  · simp [FVS.create, wsumL]

theorem foldOk_step {nodesC : List Nat} (hnd : nodesC.Nodup) {nwC : Nat → Int} {com : Nat → Nat}
    {fixed : Nat → Option Nat} {l : List Nat} {s : FVS} (h : FoldOk nodesC nwC com fixed l s) {u : Nat}
    (hu : com u ∈ nodesC) (hcompat : ∀ x ∈ l, com x = com u → ∀ b c, fixed x = some b → fixed u = some c → b = c) :
    FoldOk nodesC nwC com fixed (l ++ [u])
      (s.fixIf nwC (com u) (fixed u)) := by
  cases hf : fixed u with
  | none =>
    show FoldOk nodesC nwC com fixed (l ++ [u]) s
    refine ⟨fun y b => ?_, h.data, h.cnt0, h.bw, h.total⟩
    rw [h.block]
    simp only [List.mem_append, List.mem_singleton]
    constructor
    · rintro ⟨x, hx, h1⟩; exact ⟨x, Or.inl hx, h1⟩
    · rintro ⟨x, hx | rfl, h1, h2⟩
      · exact ⟨x, hx, h1, h2⟩
      · rw [hf] at h2; cases h2
  | some c =>
    show FoldOk nodesC nwC com fixed (l ++ [u]) (s.fixToBlock nwC (com u) c)
    unfold FVS.fixToBlock
    split
    · rename_i hnone
      refine ⟨fun y b => ?_, fun y hy => ?_, fun y hy => ?_, fun b => ?_, ?_⟩
      · by_cases hyu : y = com u
        · subst hyu
          simp only [setData, if_true, Option.some.injEq, List.mem_append, List.mem_singleton]
          constructor
          · rintro rfl; exact ⟨u, Or.inr rfl, rfl, hf⟩
          · rintro ⟨x, hx | rfl, h1, h2⟩
            · have := (h.block (com u) b).2 ⟨x, hx, h1, h2⟩
              rw [hnone] at this; cases this
            · rw [hf] at h2; cases h2; rfl
        · simp only [setData, hyu, if_false, h.block, List.mem_append, List.mem_singleton]
          constructor
          · rintro ⟨x, hx, h1⟩; exact ⟨x, Or.inl hx, h1⟩
          · rintro ⟨x, hx | rfl, h1, h2⟩
            · exact ⟨x, hx, h1, h2⟩
            · exact absurd h1.symm hyu
      · by_cases hyu : y = com u
        · subst hyu; simp [setData]
        · simp only [setData, hyu, if_false] at hy ⊢; exact h.data y hy
      · by_cases hyu : y = com u
        · subst hyu; simp [setData] at hy
        · simp only [setData, hyu, if_false] at hy ⊢; exact h.cnt0 y hy
      · rw [wsumL_upd hnd hu (f := fun y => if (s.data y).block = some b then nwC y else 0)]
        · simp only [addBw, setData, if_true, hnone, Option.some.injEq]
          rw [h.bw b]
          by_cases hbc : b = c
          · simp [hbc]
          · simp [hbc, Ne.symm hbc]
        · intro x hx; simp [setData, hx]
      · rw [wsumL_upd hnd hu (f := fun y => if (s.data y).block.isSome = true then nwC y else 0)]
        · simp [setData, hnone, h.total]
        · intro x hx; simp [setData, hx]
    · rename_i b' hb'
      refine ⟨fun y b => ?_, h.data, h.cnt0, h.bw, h.total⟩
      rw [h.block]
      simp only [List.mem_append, List.mem_singleton]
      constructor
      · rintro ⟨x, hx, h1⟩; exact ⟨x, Or.inl hx, h1⟩
      · rintro ⟨x, hx | rfl, h1, h2⟩
        · exact ⟨x, hx, h1, h2⟩
        · obtain ⟨x', hx', h3, h4⟩ := (h.block (com x) b').1 hb'
          have := hcompat x' hx' h3 b' b h4 h2
          subst this
          exact ⟨x', hx', by rw [h3, h1], h4⟩

theorem foldOk_fold {nodesC : List Nat} (hnd : nodesC.Nodup) {nwC : Nat → Int} {com : Nat → Nat}
    {fixed : Nat → Option Nat} (l : List Nat) : ∀ (l0 : List Nat) (s : FVS), FoldOk nodesC nwC com fixed l0 s →
    (∀ x ∈ l0 ++ l, com x ∈ nodesC) →
    (∀ x ∈ l0 ++ l, ∀ y ∈ l0 ++ l, com x = com y → ∀ b c, fixed x = some b → fixed y = some c → b = c) →
    FoldOk nodesC nwC com fixed (l0 ++ l)
      (l.foldl (fun s u => s.fixIf nwC (com u) (fixed u)) s) := by
  induction l with
  | nil => intro l0 s h _ _; simpa using h
  | cons a l ih =>
    intro l0 s h hm hc
    have h1 := foldOk_step hnd h (u := a) (hm a (by simp)) (fun x hx hxa b c => hc x (by simp [hx]) a (by simp) hxa b c)
    have h2 := ih (l0 ++ [a]) _ h1 (by simpa using hm) (by simpa using hc)
    simpa using h2

theorem fold_maxw (com : Nat → Nat) (nwC : Nat → Int) (fixed : Nat → Option Nat) (l : List Nat) : ∀ s : FVS,
    (l.foldl (fun s u => s.fixIf nwC (com u) (fixed u)) s).maxw = s.maxw := by
  induction l with
  | nil => intro s; rfl
  | cons a l ih =>
    intro s
    rw [List.foldl_cons, ih]
    cases fixed a with
    | none => rfl
    | some b =>
      show (s.fixToBlock nwC (com a) b).maxw = _
      unfold FVS.fixToBlock
      split <;> rfl

theorem addFixed_foldOk {nodes : List Nat} (hnd : nodes.Nodup) {nw : Nat → Int} {fixed : Nat → Option Nat}
    {order : List Nat} (ho : order.Perm nodes) (k : Nat) (maxw : Nat → Int) :
    FoldOk nodes nw id fixed order (FVS.addFixed k maxw nw fixed order) := by
  have := foldOk_fold hnd (nwC := nw) (com := id) (fixed := fixed) order [] _ (foldOk_nil nodes nw id fixed k maxw)
    (fun x hx => by simpa using ho.mem_iff.1 (by simpa using hx))
    (fun x _ y _ hxy b c hb hc => by
      have hxy : x = y := hxy
      subst hxy; rw [hb] at hc; exact Option.some.inj hc)
  exact this

/-- C19, input: fixing nodes through the API (in any order of the parallel loop) gives exactly the
requested fixed vertices. -/
theorem C19_add_fixed_vertices {nodes : List Nat} (hnd : nodes.Nodup) {nw : Nat → Int} {fixed : Nat → Option Nat}
    (hout : ∀ x, x ∉ nodes → fixed x = none) {order : List Nat} (ho : order.Perm nodes) (k : Nat) (maxw : Nat → Int) :
    (FVS.addFixed k maxw nw fixed order).Ok nodes nw fixed := by
  have h := addFixed_foldOk hnd (nw := nw) (fixed := fixed) ho k maxw
  have hb : ∀ x, ((FVS.addFixed k maxw nw fixed order).data x).block = fixed x := by
    intro x
    cases hx : fixed x with
    | none =>
      cases hd : ((FVS.addFixed k maxw nw fixed order).data x).block with
      | none => rfl
      | some b =>
        obtain ⟨y, _, h1, h2⟩ := (h.block x b).1 hd
        have h1 : y = x := h1
        rw [h1, hx] at h2; cases h2
    | some b =>
      refine (h.block x b).2 ⟨x, ?_, rfl, hx⟩
      refine ho.mem_iff.2 ?_
      by_contra hn
      rw [hout x hn] at hx; cases hx
  refine ⟨hb, fun b => ?_, ?_⟩
  · rw [h.bw]; simp only [hb]; rfl
  · rw [h.total]; simp only [hb]; rfl

theorem create_Inv' {nodes : List Nat} (hnd : nodes.Nodup) {nw : Nat → Int} (hnw : ∀ x, 0 ≤ nw x)
    {fixed : Nat → Option Nat} (hout : ∀ x, x ∉ nodes → fixed x = none) {order : List Nat} (ho : order.Perm nodes)
    (k : Nat) (maxw : Nat → Int) :
    NLevel.Inv nodes fixed nw (NLevel.create nodes nw (FVS.addFixed k maxw nw fixed order)) := by
  have h := addFixed_foldOk hnd (nw := nw) (fixed := fixed) ho k maxw
  have ok := C19_add_fixed_vertices hnd (nw := nw) hout ho k maxw
  have hd : ∀ x, (fixed x).isSome → ((FVS.addFixed k maxw nw fixed order).data x).cnt = 1 ∧
      ((FVS.addFixed k maxw nw fixed order).data x).weight = nw x := by
    intro x hx; exact h.data x (by rw [ok.block]; exact hx)
  have hc : ∀ x, ((FVS.addFixed k maxw nw fixed order).data x).cnt = if (fixed x).isSome then 1 else 0 := by
    intro x
    cases hx : fixed x with
    | none => simp; exact h.cnt0 x (by rw [ok.block, hx])
    | some b => simp; exact (hd x (by rw [hx]; rfl)).1
  refine ⟨?_, ?_, ?_, ?_, ?_, ?_, ?_, ?_, ?_, ?_, ?_, ?_, ?_, ?_⟩
  · intro x; simp [NLevel.create]
  · simp [NLevel.create]
  · simp [NLevel.create]
  · intro x; show ((FVS.addFixed k maxw nw fixed order).data x).cnt = _ + 0; rw [hc x]; rfl
  · intro x hx
    have hx : 0 < ((FVS.addFixed k maxw nw fixed order).data x).cnt := hx
    show ((FVS.addFixed k maxw nw fixed order).data x).block.isSome = true
    rw [hc] at hx; rw [ok.block]
    by_contra hn; simp [hn] at hx
  · intro x _ hx
    have hx : ((FVS.addFixed k maxw nw fixed order).data x).block.isSome = true := hx
    show 0 < ((FVS.addFixed k maxw nw fixed order).data x).cnt
    rw [hc]; rw [ok.block] at hx; simp [hx]
  · intro x b hx
    exact ⟨by rw [← hx]; exact ok.block x, (hd x (by rw [hx]; rfl)).2⟩
  · simp [NLevel.create]
  · intro x hx; rw [← hout x hx]; exact ok.block x
  · intro b
    show (FVS.addFixed k maxw nw fixed order).bw b = _
    rw [h.bw]
    apply wsumL_congr
    intro x _
    show _ = if ((FVS.addFixed k maxw nw fixed order).data x).block = some b then
      ((FVS.addFixed k maxw nw fixed order).data x).weight else 0
    by_cases hb : ((FVS.addFixed k maxw nw fixed order).data x).block = some b
    · rw [if_pos hb, if_pos hb, (h.data x (by rw [hb]; rfl)).2]
    · rw [if_neg hb, if_neg hb]
  · show (FVS.addFixed k maxw nw fixed order).total = _
    rw [h.total]
    apply wsumL_congr
    intro x _
    show _ = if ((FVS.addFixed k maxw nw fixed order).data x).block.isSome = true then
      ((FVS.addFixed k maxw nw fixed order).data x).weight else 0
    by_cases hb : ((FVS.addFixed k maxw nw fixed order).data x).block.isSome = true
    · rw [if_pos hb, if_pos hb, (h.data x hb).2]
    · rw [if_neg hb, if_neg hb]
  · intro x hx
    have hx : ((FVS.addFixed k maxw nw fixed order).data x).block.isSome = true := hx
    show 0 ≤ ((FVS.addFixed k maxw nw fixed order).data x).weight
    rw [(h.data x hx).2]; exact hnw x
  · intro x; simp [NLevel.create]
  · exact hnw

section
variable {nodes : List Nat} {fixed : Nat → Option Nat} {w0 : Nat → Int}

theorem tryContract_of_fixed {s : NLevel} (hf : s.fv.hasFixed = true) (u v : Nat) (lim : Int) :
    (s.nw u + s.nw v ≤ lim ∧ CStep s.fv s.nw u v (s.tryContract u v lim).1 (s.tryContract u v lim).2) ∨
    (¬ s.nw u + s.nw v ≤ lim ∧ s.tryContract u v lim = (false, s.fv)) := by
  unfold NLevel.tryContract
  by_cases h : s.nw u + s.nw v ≤ lim
  · left; simp only [if_pos h, if_pos hf]; exact ⟨h, contractImpl_CStep _ _ _ _⟩
  · right; exact ⟨h, by simp [h]⟩

theorem Inv_step {s s' : NLevel} (hnd : nodes.Nodup) (hw0 : ∀ x, 0 ≤ w0 x)
    (hpos : 0 < wsumL nodes (fun x => if (fixed x).isSome then w0 x else 0))
    (h : NLevel.Inv nodes fixed w0 s) {o : NOp} (hst : s.step o = some s') : NLevel.Inv nodes fixed w0 s' := by
  have hf := h.hasFixed hpos
  cases o with
  | contract u v lim =>
    simp only [NLevel.step] at hst
    split at hst
    · rename_i hc
      obtain ⟨huv, hu, hv⟩ := hc
      rcases tryContract_of_fixed hf u v lim with ⟨_, hr⟩ | ⟨_, hr⟩
      · split at hst
        · rename_i ht
          cases hst
          rw [ht] at hr
          exact h.contract hnd huv hu hv (CStep.spec hr huv (h.iff_alive ((h.en u).1 hu).2) (h.iff_alive ((h.en v).1 hv).2))
        · rename_i ht
          cases hst
          have ht : (s.tryContract u v lim).1 = false := by simpa using ht
          rw [ht] at hr
          have : (s.tryContract u v lim).2 = s.fv := by
            revert hr; generalize (s.tryContract u v lim).2 = f
            intro hr; cases hr <;> rfl
          rw [this]; exact h
      · rw [hr] at hst
        simp at hst; rw [← hst]; exact h
    · cases hst
  | uncontract u v =>
    simp only [NLevel.step] at hst
    split at hst
    · rename_i hc
      obtain ⟨hm, hu⟩ := hc
      cases hst
      have := (h.mem _ hm).2.2
      refine h.uncontract hw0 hnd hm hu (uncontract_USpec this (h.blk v) ?_)
      intro hv
      have h1 := h.cnt u
      rw [fixedChildren_eq, fc_erase hm] at h1
      simp only [hv, and_self, if_true] at h1
      have : 0 < (s.fv.data u).cnt := by omega
      exact ⟨this, h.blk u this⟩
    · cases hst

theorem Inv_exec (hnd : nodes.Nodup) (hw0 : ∀ x, 0 ≤ w0 x)
    (hpos : 0 < wsumL nodes (fun x => if (fixed x).isSome then w0 x else 0)) (ops : List NOp) :
    ∀ {s s' : NLevel}, NLevel.Inv nodes fixed w0 s → s.exec ops = some s' → NLevel.Inv nodes fixed w0 s' := by
  induction ops with
  | nil => intro s s' h he; cases he; exact h
  | cons o ops ih =>
    intro s s' h he
    simp only [NLevel.exec] at he
    split at he
    · rename_i s1 h1; exact ih (Inv_step hnd hw0 hpos h h1) he
    · cases he

end

/-! ### C18 -/

section
variable {nodes : List Nat} {fixed : Nat → Option Nat} {nw : Nat → Int} {order : List Nat} {k : Nat} {maxw : Nat → Int}

/-- C18, one contraction: it is performed exactly if it is allowed; then `u` becomes fixed iff one of
`u`, `v` was, to that block.  A refused contraction changes nothing at all. -/
theorem C18_contract_conservative {s s' : NLevel} (hf : s.fv.hasFixed = true) {u v : Nat} {lim : Int}
    (h : s.step (.contract u v lim) = some s') :
    (s.Allowed u v lim ∧ s'.tree = (u, v) :: s.tree ∧ s'.enabled v = false ∧
      (s'.fv.data u).block = ((s.fv.data u).block).or (s.fv.data v).block) ∨
    (¬ s.Allowed u v lim ∧ s' = s) := by
  simp only [NLevel.step] at h
  split at h
  · rename_i hc
    obtain ⟨huv, hu, hv⟩ := hc
    rcases tryContract_of_fixed hf u v lim with ⟨hl, hr⟩ | ⟨hl, hr⟩
    · by_cases ht : (s.tryContract u v lim).1 = true
      · rw [if_pos ht] at h
        cases h
        rw [ht] at hr
        left
        revert hr
        generalize (s.tryContract u v lim).2 = f
        intro hr
        refine ⟨?_, rfl, by simp, ?_⟩
        · refine ⟨hl, ?_⟩
          cases hr with
          | free h1 h2 => rw [h1, h2]; trivial
          | ufix h1 h2 h3 => rw [h1, h2]; exact h3
          | vfix h1 h2 h3 => rw [h1, h2]; exact h3
          | both h1 h2 => rw [h1, h2]
        · cases hr with
          | free h1 h2 => simp [h1, h2]
          | ufix h1 h2 h3 => simp [h1, h2, setData]
          | vfix h1 h2 h3 => simp [h1, setData, huv]
          | both h1 h2 => simp [h1, setData]
      · rw [if_neg ht] at h
        cases h
        have ht : (s.tryContract u v lim).1 = false := by simpa using ht
        rw [ht] at hr
        right
        revert hr
        generalize (s.tryContract u v lim).2 = f
        intro hr
        cases hr with
        | ufail h1 h2 h3 => exact ⟨fun ha => by have := ha.2; rw [h1, h2] at this; simp only at this; omega, rfl⟩
        | vfail h1 h2 h3 => exact ⟨fun ha => by have := ha.2; rw [h1, h2] at this; simp only at this; omega, rfl⟩
        | differ h1 h2 h3 => exact ⟨fun ha => by have := ha.2; rw [h1, h2] at this; exact h3 this, rfl⟩
    · rw [hr] at h
      simp at h
      right; exact ⟨fun ha => hl ha.1, h.symm⟩
  · cases h

/-- C18, reversibility: start with any fixed vertices (one of positive weight), perform any history of
contractions (successful or refused) and uncontractions, in any order in which a node is uncontracted
only from an enabled node.  Whenever all contractions have been undone, blocks, fixed block weights,
node weights and enabled nodes are exactly the initial ones. -/
theorem C18_uncontraction_restores (hnd : nodes.Nodup) (hnw : ∀ x, 0 ≤ nw x)
    (hout : ∀ x, x ∉ nodes → fixed x = none) (ho : order.Perm nodes)
    (hpos : 0 < (nodes.map (fun x => if (fixed x).isSome then nw x else 0)).sum)
    {ops : List NOp} {s : NLevel}
    (h : (NLevel.create nodes nw (FVS.addFixed k maxw nw fixed order)).exec ops = some s) (ht : s.tree = []) :
    s.fv.Ok nodes nw fixed ∧ (∀ x, s.nw x = nw x) ∧ ∀ x, s.enabled x = true ↔ x ∈ nodes := by
  have hI := Inv_exec hnd hnw hpos ops (create_Inv' hnd hnw hout ho k maxw) h
  have hc : ∀ x, (s.fv.data x).cnt = if (fixed x).isSome then 1 else 0 := by
    intro x; rw [hI.cnt x]; unfold NLevel.fixedChildren; rw [ht]; simp
  have hb : ∀ x, (s.fv.data x).block = fixed x := by
    intro x
    cases hx : fixed x with
    | some b => exact (hI.orig x b hx).1
    | none =>
      by_contra hn
      have := hI.alive x (by rw [ht]; simp) (Option.isSome_iff_ne_none.2 hn)
      rw [hc, hx] at this; simp at this
  have hw : ∀ x b, fixed x = some b → (s.fv.data x).weight = nw x := fun x b hx => (hI.orig x b hx).2
  refine ⟨⟨hb, fun b => ?_, ?_⟩, fun x => by rw [hI.nwEq x, ht]; simp, fun x => by rw [hI.en x, ht]; simp⟩
  · rw [hI.bw b]
    apply wsumL_congr
    intro x _
    rw [hb x]
    by_cases hx : fixed x = some b
    · rw [if_pos hx, if_pos hx, hw x b hx]
    · rw [if_neg hx, if_neg hx]
  · rw [hI.total]
    apply wsumL_congr
    intro x _
    rw [hb x]
    cases hx : fixed x with
    | none => simp
    | some b => simp [hw x b hx]

/-- C18, meaning of the fixed blocks: at any time, an enabled node is fixed to block `b` iff a node that
was fixed to `b` in the input has been contracted into it. -/
theorem C18_cluster_fixed_iff (hnd : nodes.Nodup) (hnw : ∀ x, 0 ≤ nw x)
    (hout : ∀ x, x ∉ nodes → fixed x = none) (ho : order.Perm nodes)
    (hpos : 0 < (nodes.map (fun x => if (fixed x).isSome then nw x else 0)).sum)
    {ops : List NOp} {s : NLevel}
    (h : (NLevel.create nodes nw (FVS.addFixed k maxw nw fixed order)).exec ops = some s)
    {x : Nat} (hx : s.enabled x = true) (b : Nat) :
    (s.fv.data x).block = some b ↔ ∃ y, s.Desc x y ∧ fixed y = some b := by
  have hI := Inv_exec hnd hnw hpos ops (create_Inv' hnd hnw hout ho k maxw) h
  constructor
  · intro hb
    have hpos : 0 < (s.fv.data x).cnt := hI.alive x ((hI.en x).1 hx).2 (by rw [hb]; rfl)
    -- induction on the part of the forest that contains all edges below the node
    have key : ∀ (t : List (Nat × Nat)) (x : Nat), (∃ t0, s.tree = t0 ++ t) → (∀ v, (x, v) ∈ s.tree → (x, v) ∈ t) →
        0 < (s.fv.data x).cnt → (s.fv.data x).block = some b → ∃ y, s.Desc x y ∧ fixed y = some b := by
      intro t
      induction hn : t.length using Nat.strong_induction_on generalizing t with
      | _ n ih =>
        intro x hsuf hin hc hb
        by_cases hfx : (fixed x).isSome = true
        · obtain ⟨c, hc'⟩ := Option.isSome_iff_exists.1 hfx
          have := (hI.orig x c hc').1
          rw [hb] at this; cases this
          exact ⟨x, Relation.ReflTransGen.refl, hc'⟩
        · have h1 := hI.cnt x
          rw [if_neg hfx, fixedChildren_eq] at h1
          have : 0 < fc s.tree (fun y => (s.fv.data y).cnt) x := by omega
          obtain ⟨v, hv, hcv⟩ := fc_pos.1 this
          have hvt := hin v hv
          obtain ⟨t1, t2, ht12⟩ := List.append_of_mem hvt
          obtain ⟨t0, ht0⟩ := hsuf
          have hbv : (s.fv.data v).block = some b := by rw [← hI.edge _ hv hcv]; exact hb
          have hord := hI.order
          rw [ht0, ht12, ← List.append_assoc] at hord
          obtain ⟨y, hy, hfy⟩ := ih t2.length (by rw [← hn, ht12]; simp; omega) t2 rfl v
            ⟨t0 ++ t1 ++ [(x, v)], by rw [ht0, ht12]; simp⟩ (by
              intro w hw
              have hne := (hI.mem _ hw).2.2
              rw [ht0, ht12, ← List.append_assoc] at hw
              rcases List.mem_append.1 hw with hw | hw
              · exact absurd rfl ((List.pairwise_append.1 hord).2.2 _ hw (x, v) (by simp)).1
              · rcases List.mem_cons.1 hw with hw | hw
                · have h1 : v = x := congrArg Prod.fst hw
                  have h2 : w = v := congrArg Prod.snd hw
                  exact absurd h2.symm hne
                · exact hw) hcv hbv
          exact ⟨y, Relation.ReflTransGen.head hv hy, hfy⟩
    exact key s.tree x ⟨[], rfl⟩ (fun _ h => h) hpos hb
  · rintro ⟨y, hd, hy⟩
    have key : 0 < (s.fv.data x).cnt ∧ (s.fv.data x).block = some b := by
      unfold NLevel.Desc at hd
      clear hx
      induction hd using Relation.ReflTransGen.head_induction_on with
      | refl =>
        refine ⟨?_, (hI.orig y b hy).1⟩
        rw [hI.cnt y, hy]; simp
      | head hac _ ih =>
        rename_i a c _
        refine ⟨?_, by rw [hI.edge _ hac ih.1]; exact ih.2⟩
        rw [hI.cnt a, fixedChildren_eq]
        have : 0 < fc s.tree (fun y => (s.fv.data y).cnt) a := fc_pos.2 ⟨c, hac, ih.1⟩
        omega
    exact key.2


/-- weights fixed to the blocks, from the enabled nodes -/
def NLevel.fixedWeight (nodes : List Nat) (s : NLevel) (b : Nat) : Int :=
  (nodes.map (fun x => if s.enabled x = true ∧ (s.fv.data x).block = some b then s.nw x else 0)).sum

theorem fixedWeight_contract {w0 : Nat → Int} {s : NLevel} (h : NLevel.Inv nodes fixed w0 s) (hnd : nodes.Nodup) {u v : Nat}
    (huv : u ≠ v) (hu : s.enabled u = true) (hv : s.enabled v = true) {f : FVS} (hc : CSpec s.fv f s.nw u v)
    (b : Nat) (hb : s.fv.bw b = s.fixedWeight nodes b) :
    f.bw b = NLevel.fixedWeight nodes
      { nw := fun x => if x = u then s.nw u + s.nw v else s.nw x
        enabled := fun x => if x = v then false else s.enabled x
        tree := (u, v) :: s.tree
        fv := f } b := by
  have hun := ((h.en u).1 hu).1
  have hvn := ((h.en v).1 hv).1
  have key := wsumL_two hnd hun hvn huv
    (f := fun x => if s.enabled x = true ∧ (s.fv.data x).block = some b then s.nw x else 0)
    (g := fun x => if (if x = v then false else s.enabled x) = true ∧ (f.data x).block = some b then
      (if x = u then s.nw u + s.nw v else s.nw x) else 0)
    (by
      intro x h1 h2
      simp only [hc.blk x, h1, h2, or_self, if_false])
  unfold NLevel.fixedWeight
  refine Eq.trans ?_ key.symm
  rw [hc.bw, hb]
  unfold NLevel.fixedWeight wsumL
  simp only [hc.blk, huv, hu, hv, true_or, if_true, if_false, true_and]
  cases hbu : (s.fv.data u).block with
  | none =>
    cases hbv : (s.fv.data v).block with
    | none => simp
    | some c =>
      by_cases hcb : c = b
      · simp [hcb]; omega
      · simp [hcb]
  | some c =>
    cases hbv : (s.fv.data v).block with
    | none => by_cases hcb : c = b <;> simp [hcb]
    | some d =>
      have := hc.agree c d hbu hbv
      subst this
      by_cases hcb : c = b <;> simp [hcb]

/-- C18, weights: during any history of contractions, the weight fixed to a block is the total weight of
the enabled nodes fixed to it, and it never exceeds the limit of the block (unless it did in the input). -/
theorem C18_fixed_block_weights (hnd : nodes.Nodup) (hnw : ∀ x, 0 ≤ nw x)
    (hout : ∀ x, x ∉ nodes → fixed x = none) (ho : order.Perm nodes)
    (hpos : 0 < (nodes.map (fun x => if (fixed x).isSome then nw x else 0)).sum)
    {ops : List NOp} (hops : ∀ o ∈ ops, ∃ u v lim, o = .contract u v lim) {s : NLevel}
    (h : (NLevel.create nodes nw (FVS.addFixed k maxw nw fixed order)).exec ops = some s) (b : Nat) :
    s.fv.bw b = s.fixedWeight nodes b ∧
    s.fv.bw b ≤ max (maxw b) (nodes.map (fun x => if fixed x = some b then nw x else 0)).sum := by
  have h0 := create_Inv' hnd hnw hout ho k maxw
  have ok := C19_add_fixed_vertices hnd (nw := nw) hout ho k maxw
  have key : ∀ (ops : List NOp), (∀ o ∈ ops, ∃ u v lim, o = .contract u v lim) → ∀ s s' : NLevel,
      NLevel.Inv nodes fixed nw s → s.fv.maxw = maxw → s.fv.bw b = s.fixedWeight nodes b →
      s.fv.bw b ≤ max (maxw b) (nodes.map (fun x => if fixed x = some b then nw x else 0)).sum →
      s.exec ops = some s' → s'.fv.bw b = s'.fixedWeight nodes b ∧
        s'.fv.bw b ≤ max (maxw b) (nodes.map (fun x => if fixed x = some b then nw x else 0)).sum := by
    intro ops
    induction ops with
    | nil => intro _ s s' _ _ h1 h2 he; cases he; exact ⟨h1, h2⟩
    | cons o ops ih =>
      intro ho' s s' hI hm h1 h2 he
      simp only [NLevel.exec] at he
      split at he
      · rename_i s1 hs1
        have hI1 := Inv_step hnd hnw hpos hI hs1
        obtain ⟨u, v, lim, rfl⟩ := ho' o (by simp)
        have hf := hI.hasFixed hpos
        have : s1.fv.maxw = maxw ∧ s1.fv.bw b = s1.fixedWeight nodes b ∧
            s1.fv.bw b ≤ max (maxw b) (nodes.map (fun x => if fixed x = some b then nw x else 0)).sum := by
          rcases C18_contract_conservative hf hs1 with ⟨_, htr, _⟩ | ⟨_, rfl⟩
          · simp only [NLevel.step] at hs1
            split at hs1
            · rename_i hc
              obtain ⟨huv, hu, hv⟩ := hc
              split at hs1
              · rename_i ht
                rcases tryContract_of_fixed hf u v lim with ⟨_, hr⟩ | ⟨_, hr⟩
                · rw [ht] at hr
                  have hsp := CStep.spec hr huv (hI.iff_alive ((hI.en u).1 hu).2) (hI.iff_alive ((hI.en v).1 hv).2)
                  cases hs1
                  refine ⟨hsp.maxw.trans hm, fixedWeight_contract hI hnd huv hu hv hsp b h1, ?_⟩
                  rcases hsp.lim b with hl | hl
                  · exact hl ▸ h2
                  · exact le_trans hl (by rw [hm]; exact le_max_left _ _)
                · rw [hr] at ht; cases ht
              · cases hs1
                have : ((u, v) :: s.tree).length = s.tree.length := by rw [← htr]
                simp at this
            · cases hs1
          · exact ⟨hm, h1, h2⟩
        exact ih (fun o ho => ho' o (by simp [ho])) s1 s' hI1 this.1 this.2.1 this.2.2 he
      · cases he
  refine key ops hops _ s h0 ?_ ?_ ?_ h
  · exact fold_maxw id nw fixed order (FVS.create k maxw)
  · show (FVS.addFixed k maxw nw fixed order).bw b = _
    rw [ok.bw b]
    unfold NLevel.fixedWeight
    refine congrArg List.sum (List.map_congr_left (fun x hx => ?_))
    show _ = if (nodes.contains x) = true ∧ ((FVS.addFixed k maxw nw fixed order).data x).block = some b then nw x else 0
    rw [ok.block]
    simp [hx]
  · show (FVS.addFixed k maxw nw fixed order).bw b ≤ _
    rw [ok.bw b]; exact le_max_right _ _

end

/-! ### C19 -/

/-- Weight of the coarse nodes: the total weight of their members. -/
def clusterWeight (nodes : List Nat) (nw : Nat → Int) (com : Nat → Nat) (c : Nat) : Int :=
  (nodes.map (fun x => if com x = c then nw x else 0)).sum

theorem clusterWeight_nonneg {nodes : List Nat} {nw : Nat → Int} (hnw : ∀ x, 0 ≤ nw x) (com : Nat → Nat) (c : Nat) :
    0 ≤ clusterWeight nodes nw com c := by
  unfold clusterWeight
  induction nodes with
  | nil => simp
  | cons a l ih =>
    rw [List.map_cons, List.sum_cons]
    have := hnw a
    split <;> omega

theorem le_clusterWeight {nodes : List Nat} {nw : Nat → Int} (hnw : ∀ x, 0 ≤ nw x) (com : Nat → Nat) {x : Nat}
    (hx : x ∈ nodes) : nw x ≤ clusterWeight nodes nw com (com x) := by
  unfold clusterWeight
  induction nodes with
  | nil => simp at hx
  | cons a l ih =>
    rw [List.map_cons, List.sum_cons]
    rcases List.mem_cons.1 hx with rfl | hx
    · have := clusterWeight_nonneg (nodes := l) hnw com (com x)
      unfold clusterWeight at this
      simp only [if_true]; omega
    · have := ih hx
      have := hnw a
      split <;> omega

/-- `fixedC` is the map of fixed coarse nodes: `c` is fixed to `b` iff one of its members is. -/
def IsCoarseFixed (nodes : List Nat) (com : Nat → Nat) (fixed fixedC : Nat → Option Nat) : Prop :=
  ∀ c b, fixedC c = some b ↔ ∃ x ∈ nodes, com x = c ∧ fixed x = some b

theorem exists_pos {nodes : List Nat} {f : Nat → Int} (h : 0 < (nodes.map f).sum) : ∃ x ∈ nodes, 0 < f x := by
  by_contra hcon
  have : (nodes.map f).sum ≤ 0 := by
    induction nodes with
    | nil => simp
    | cons a l ih =>
      rw [List.map_cons, List.sum_cons]
      have h1 : ¬ 0 < f a := fun h => hcon ⟨a, by simp, h⟩
      have h2 := ih (by
        rw [List.map_cons, List.sum_cons] at h; omega) (fun ⟨x, hx, h⟩ => hcon ⟨x, by simp [hx], h⟩)
      omega
  omega

theorem pos_sum_of {nodes : List Nat} {f : Nat → Int} (hf : ∀ x ∈ nodes, 0 ≤ f x) {x : Nat} (hx : x ∈ nodes) (h : 0 < f x) :
    0 < (nodes.map f).sum := by
  induction nodes with
  | nil => simp at hx
  | cons a l ih =>
    rw [List.map_cons, List.sum_cons]
    have ha := hf a (by simp)
    have hl : 0 ≤ (l.map f).sum := by
      have : ∀ l : List Nat, (∀ x ∈ l, 0 ≤ f x) → 0 ≤ (l.map f).sum := by
        intro l
        induction l with
        | nil => intro _; simp
        | cons a l ih => intro h; rw [List.map_cons, List.sum_cons]; have := h a (by simp); have := ih (fun x hx => h x (by simp [hx])); omega
      exact this l (fun x hx => hf x (by simp [hx]))
    rcases List.mem_cons.1 hx with rfl | hx
    · omega
    · have := ih (fun x hx => hf x (by simp [hx])) hx; omega

/-- C19: one level of coarsening.  If the nodes of every cluster are fixed to at most one block, and at
least one fixed vertex has positive weight, then the coarse fixed vertices (for every order of the
parallel loop) are exactly those with a fixed member, with the same block and with the right weights;
the coarse level again has fixed vertices of positive weight, so the statement applies to the whole
hierarchy. -/
theorem C19_coarse_fixed_vertices_partial {nodes nodesC : List Nat} (hndC : nodesC.Nodup)
    {nw : Nat → Int} (hnw : ∀ x, 0 ≤ nw x) {fixed : Nat → Option Nat} {s : FVS} (hs : s.Ok nodes nw fixed)
    (hout : ∀ x, x ∉ nodes → fixed x = none)
    (hpos : ∃ x ∈ nodes, (fixed x).isSome ∧ 0 < nw x) {com : Nat → Nat} (hcom : ∀ x ∈ nodes, com x ∈ nodesC)
    (hcompat : ∀ x ∈ nodes, ∀ y ∈ nodes, com x = com y → ∀ b c, fixed x = some b → fixed y = some c → b = c)
    {order : List Nat} (ho : order.Perm nodes) (maxw : Nat → Int) :
    ∃ fixedC, IsCoarseFixed nodes com fixed fixedC ∧
      (s.contractStatic maxw (clusterWeight nodes nw com) com order).Ok nodesC (clusterWeight nodes nw com) fixedC ∧
      ∃ c ∈ nodesC, (fixedC c).isSome ∧ 0 < clusterWeight nodes nw com c := by
  obtain ⟨x0, hx0, hf0, hw0⟩ := hpos
  have hhas : s.hasFixed = true := by
    unfold FVS.hasFixed
    rw [decide_eq_true_iff, hs.total]
    refine pos_sum_of (fun x _ => ?_) hx0 (by simp [hf0, hw0])
    have := hnw x
    split <;> omega
  have hfold := foldOk_fold hndC (nwC := clusterWeight nodes nw com) (com := com) (fixed := fun u => (s.data u).block) order []
    _ (foldOk_nil nodesC (clusterWeight nodes nw com) com (fun u => (s.data u).block) s.k maxw)
    (fun x hx => hcom x (ho.mem_iff.1 (by simpa using hx)))
    (fun x hx y hy hxy b c hb hc => hcompat x (ho.mem_iff.1 (by simpa using hx)) y (ho.mem_iff.1 (by simpa using hy)) hxy b c
      (by rw [← hs.block]; exact hb) (by rw [← hs.block]; exact hc))
  have heq : s.contractStatic maxw (clusterWeight nodes nw com) com order =
      order.foldl (fun t u => t.fixIf (clusterWeight nodes nw com) (com u) (s.data u).block) (FVS.create s.k maxw) := by
    unfold FVS.contractStatic; rw [if_pos hhas]
  rw [heq]
  generalize hT : order.foldl (fun t u => t.fixIf (clusterWeight nodes nw com) (com u) (s.data u).block) (FVS.create s.k maxw) = T at hfold
  have hfold : FoldOk nodesC (clusterWeight nodes nw com) com (fun u => (s.data u).block) order T := hfold
  have hcf : IsCoarseFixed nodes com fixed (fun c => (T.data c).block) := by
    intro c b
    refine Iff.trans (hfold.block c b) ?_
    constructor
    · rintro ⟨x, hx, h1, h2⟩; exact ⟨x, ho.mem_iff.1 hx, h1, by rw [← hs.block]; exact h2⟩
    · rintro ⟨x, hx, h1, h2⟩; exact ⟨x, ho.mem_iff.2 hx, h1, by rw [← hs.block] at h2; exact h2⟩
  refine ⟨fun c => (T.data c).block, hcf, ⟨fun _ => rfl, hfold.bw, hfold.total⟩, com x0, hcom x0 hx0, ?_, ?_⟩
  · obtain ⟨b, hb⟩ := Option.isSome_iff_exists.1 hf0
    have := (hcf (com x0) b).2 ⟨x0, hx0, rfl, hb⟩
    show (T.data (com x0)).block.isSome = true
    have h2 : (T.data (com x0)).block = some b := this
    rw [h2]; rfl
  · have := le_clusterWeight hnw com hx0
    omega

/-- C19, projection: a coarse partition that respects the coarse fixed vertices yields a fine partition
that respects the fine ones. -/
theorem C19_projection_respects_fixed {nodes : List Nat} {com : Nat → Nat} {fixed fixedC : Nat → Option Nat}
    (h : IsCoarseFixed nodes com fixed fixedC) {Φc : Nat → Nat} (hΦ : ∀ c b, fixedC c = some b → Φc c = b) :
    ∀ x ∈ nodes, ∀ b, fixed x = some b → Φc (com x) = b :=
  fun x hx b hb => hΦ (com x) b ((h (com x) b).2 ⟨x, hx, rfl, hb⟩)

/-- C19 fails if all fixed vertices have weight zero: the coarse hypergraph forgets them.  (The code asks
"is the total fixed weight positive" to find out whether there are fixed vertices.) -/
theorem C19_zero_weight_fixed_vertices_lost :
    ∃ (nodes : List Nat) (nw : Nat → Int) (fixed : Nat → Option Nat) (s : FVS),
      nodes.Nodup ∧ (∀ x, 0 ≤ nw x) ∧ s.Ok nodes nw fixed ∧ s = FVS.addFixed 2 (fun _ => 100) nw fixed nodes ∧
      fixed 0 = some 1 ∧ ∀ (maxw nwC : Nat → Int) (com : Nat → Nat) (order : List Nat) (c : Nat),
        ((s.contractStatic maxw nwC com order).data c).block = none := by
  refine ⟨[0, 1], fun x => if x = 0 then 0 else 1, fun x => if x = 0 then some 1 else none,
    FVS.addFixed 2 (fun _ => 100) (fun x => if x = 0 then 0 else 1) (fun x => if x = 0 then some 1 else none) [0, 1],
    by decide, ?_, ?_, rfl, rfl, ?_⟩
  · intro x; simp only; split <;> omega
  · refine C19_add_fixed_vertices (by decide) ?_ (List.Perm.refl _) 2 _
    intro x hx
    simp at hx
    simp [hx.1]
  · intro maxw nwC com order c
    rfl

/-! ### Concrete case: nodes 0..4, node 0 fixed to block 0, node 3 to block 1; 1 is contracted into 0 and 3 into 4
(which is thereby fixed to block 1); contracting 4 into 0 is then refused; 4 goes into 2; all is undone. -/

def exFixed : Nat → Option Nat := fun x => if x = 0 then some 0 else if x = 3 then some 1 else none

def exNOps : List NOp :=
  [.contract 0 1 100, .contract 4 3 100, .contract 0 4 100, .contract 2 4 100,
   .uncontract 0 1, .uncontract 2 4, .uncontract 4 3]

example : ∃ s, (NLevel.create [0, 1, 2, 3, 4] (fun x => x + 1) (FVS.addFixed 2 (fun _ => 20) (fun x => x + 1) exFixed [3, 1, 0, 4, 2])).exec
    exNOps = some s ∧ s.tree = [] := ⟨_, rfl, by decide⟩

/-- before the uncontractions: node 2 is fixed to block 1 since 3 was contracted into it -/
example : ∃ s, (NLevel.create [0, 1, 2, 3, 4] (fun x => x + 1) (FVS.addFixed 2 (fun _ => 20) (fun x => x + 1) exFixed [3, 1, 0, 4, 2])).exec
    (exNOps.take 4) = some s ∧ (s.fv.data 2).block = some 1 ∧ s.tree = [(2, 4), (4, 3), (0, 1)] ∧
    s.fv.bw 1 = 12 ∧ s.fv.bw 0 = 3 := ⟨_, rfl, by decide, by decide, by decide, by decide⟩

example {s : NLevel} (h : (NLevel.create [0, 1, 2, 3, 4] (fun x => x + 1)
    (FVS.addFixed 2 (fun _ => 20) (fun x => x + 1) exFixed [3, 1, 0, 4, 2])).exec exNOps = some s) (ht : s.tree = []) :
    s.fv.Ok [0, 1, 2, 3, 4] (fun x => x + 1) exFixed :=
  (C18_uncontraction_restores (by decide) (fun x => by omega) (fun x hx => by
    simp at hx; simp [exFixed, hx]) (by decide) (by decide) h ht).1

end Verif
