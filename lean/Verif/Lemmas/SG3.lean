import Verif.Lemmas.SG2
import Verif.Spec.StaticGraph
import Mathlib.Data.List.Nodup
/-!
# The deduplicated incidence lists of the coarse nodes
-/
namespace Verif
open SMap (wr)
namespace SG
open SGraph (Joins between)

/-- the canonical list of coarse node `c` -/
def canon (M n' : Nat) (ends : Nat → Nat × Nat) (w : Nat → Int) (cid : Nat → Nat) (c : Nat) : List TE :=
  ((List.range n').filter (fun d => decide (d ≠ c) && (List.range M).any (fun x => decide (Joins ends cid c d x)))).map
    (fun d => { tgt := d, w := between M ends w cid c d
                id := ((List.range M).find? (fun x => decide (Joins ends cid c d x))).getD 0 })

theorem canon_sorted (M n' : Nat) (ends : Nat → Nat × Nat) (w : Nat → Int) (cid : Nat → Nat) (c : Nat) :
    Sorted (canon M n' ends w cid c) := by
  unfold Sorted canon
  rw [List.pairwise_map]
  exact List.Pairwise.filter _ List.pairwise_lt_range

theorem find_range {M : Nat} {p : Nat → Bool} {x : Nat} (hx : x < M) (hp : p x = true) :
    ∃ y, (List.range M).find? p = some y ∧ p y = true ∧ y < M ∧ ∀ z < M, p z = true → y ≤ z := by
  have hs : ((List.range M).find? p).isSome := by
    rw [List.find?_isSome]; exact ⟨x, List.mem_range.2 hx, hp⟩
  obtain ⟨y, hy⟩ := Option.isSome_iff_exists.1 hs
  refine ⟨y, hy, List.find?_some hy, List.mem_range.1 (List.mem_of_find?_eq_some hy), ?_⟩
  intro z hz hpz
  rcases find_pairwise List.pairwise_lt_range hy (List.mem_range.2 hz) hpz with h | h
  · omega
  · omega

section
variable {G : SGraph} {ends : Nat → Nat × Nat} {w : Nat → Int} {com cid : Nat → Nat} {n' : Nat}

theorem Joins.symm {ends : Nat → Nat × Nat} {cid : Nat → Nat} {c d x : Nat} (h : Joins ends cid c d x) :
    Joins ends cid d c x := by
  unfold SGraph.Joins at *; tauto

theorem joins_comm (ends : Nat → Nat × Nat) (cid : Nat → Nat) (c d x : Nat) :
    Joins ends cid c d x ↔ Joins ends cid d c x := ⟨Joins.symm, Joins.symm⟩

/-- the temporary edges of coarse node `c` -/
def tmpList (G : SGraph) (cid : Nat → Nat) (order : List Nat) (c : Nat) : List TE :=
  (order.filter (fun v => cid v = c)).flatMap (fun v => (G.inc v).map (tmpEdge G cid c))

theorem uid_inc (hR : G.Rep ends w) {v e : Nat} (hv : v ∈ G.nodes) (he : e ∈ G.inc v) :
    (G.edge e).uid < G.m / 2 ∧ (v = (ends (G.edge e).uid).1 ∨ v = (ends (G.edge e).uid).2) := by
  have := (hR.wf.inc_iff v hv (G.edge e).uid).1 (List.mem_map.2 ⟨e, he, rfl⟩)
  exact ⟨List.mem_range.1 this.1, this.2⟩

theorem tgt_inc (hR : G.Rep ends w) {v e : Nat} (hv : v ∈ G.nodes) (he : e ∈ G.inc v) :
    (ends (G.edge e).uid = (v, (G.edge e).tgt) ∨ ends (G.edge e).uid = ((G.edge e).tgt, v)) :=
  hR.wf.tgt v hv e he

theorem tgt_mem (hR : G.Rep ends w) {v e : Nat} (hv : v ∈ G.nodes) (he : e ∈ G.inc v) :
    (G.edge e).tgt ∈ G.nodes := by
  have h1 := hR.wf.ends_mem (G.edge e).uid (List.mem_range.2 (uid_inc hR hv he).1)
  rcases tgt_inc hR hv he with h | h
  · have := h1.2; simp only [SGraph.view, h] at this; exact this
  · have := h1.1; simp only [SGraph.view, h] at this; exact this

theorem ew_inc (hR : G.Rep ends w) {v e : Nat} (hv : v ∈ G.nodes) (he : e ∈ G.inc v) :
    (G.edge e).w = w (G.edge e).uid := hR.wf.ew v hv e he

theorem tmpList_ok (hR : G.Rep ends w) (hC : CoarseSpec G com cid n') {order : List Nat} (ho : order.Perm G.nodes)
    (c : Nat) : Ok (tmpList G cid order c) := by
  intro x hx
  unfold tmpList at hx
  obtain ⟨v, hv, hx⟩ := List.mem_flatMap.1 hx
  obtain ⟨e, he, rfl⟩ := List.mem_map.1 hx
  have hv := ho.mem_iff.1 (List.mem_filter.1 hv).1
  unfold tmpEdge
  dsimp only
  split_ifs with h
  · left
    refine ⟨?_, ?_⟩
    · rw [ew_inc hR hv he]; exact hR.pos _ (uid_inc hR hv he).1
    · have := hC.lt _ (tgt_mem hR hv he); have := hC.le; have := hR.small; simp only; omega
  · right; exact ⟨rfl, rfl⟩

/-- edges of cluster `c` leading to cluster `d` -/
def edgesTo (G : SGraph) (cid : Nat → Nat) (order : List Nat) (c d : Nat) : List Nat :=
  (order.filter (fun v => cid v = c)).flatMap (fun v => (G.inc v).filter (fun e => decide (cid (G.edge e).tgt = d)))

theorem mem_edgesTo {order : List Nat} (ho : order.Perm G.nodes) {c d e : Nat} :
    e ∈ edgesTo G cid order c d ↔ ∃ v ∈ G.nodes, cid v = c ∧ e ∈ G.inc v ∧ cid (G.edge e).tgt = d := by
  simp only [edgesTo, List.mem_flatMap, List.mem_filter, ho.mem_iff, decide_eq_true_eq]
  tauto

theorem edgesTo_uids (hR : G.Rep ends w) {order : List Nat} (ho : order.Perm G.nodes)
    {c d : Nat} (hcd : d ≠ c) :
    ((edgesTo G cid order c d).map (fun e => (G.edge e).uid)).Perm
      ((List.range (G.m / 2)).filter (fun x => decide (Joins ends cid c d x))) := by
  have hnd : order.Nodup := ho.nodup_iff.2 hR.wf.nodes_nodup
  rw [List.perm_ext_iff_of_nodup]
  · intro x
    simp only [List.mem_map, List.mem_filter, List.mem_range, decide_eq_true_eq, mem_edgesTo ho]
    constructor
    · rintro ⟨e, ⟨v, hv, hvc, he, hd⟩, rfl⟩
      refine ⟨(uid_inc hR hv he).1, ?_⟩
      unfold SGraph.Joins
      rcases tgt_inc hR hv he with h | h
      · left; rw [h]; exact ⟨hvc, hd⟩
      · right; rw [h]; exact ⟨hd, hvc⟩
    · rintro ⟨hx, hj⟩
      have hmem := hR.wf.ends_mem x (List.mem_range.2 hx)
      have key : ∀ v u, (ends x = (v, u) ∨ ends x = (u, v)) → v ∈ G.nodes → cid v = c → cid u = d →
          ∃ e, (∃ v ∈ G.nodes, cid v = c ∧ e ∈ G.inc v ∧ cid (G.edge e).tgt = d) ∧ (G.edge e).uid = x := by
        intro v u hvu hv hvc hud
        have : x ∈ ((G.view ends w).inc v).map (G.view ends w).uid :=
          (hR.wf.inc_iff v hv x).2 ⟨List.mem_range.2 hx, by
            rcases hvu with h | h
            · left; simp [SGraph.view, h]
            · right; simp [SGraph.view, h]⟩
        obtain ⟨e, he, hex⟩ := List.mem_map.1 this
        have hex : (G.edge e).uid = x := hex
        have he : e ∈ G.inc v := he
        refine ⟨e, ⟨v, hv, hvc, he, ?_⟩, hex⟩
        have ht := tgt_inc hR hv he
        rw [hex] at ht
        have hvune : v ≠ u := by rintro rfl; exact hcd (hud.symm.trans hvc)
        have htu : (G.edge e).tgt = u := by
          rcases ht with h | h <;> rcases hvu with h' | h' <;> rw [h] at h' <;> simp only [Prod.mk.injEq] at h'
          · exact h'.2
          · exact absurd h'.1 hvune
          · exact absurd h'.2 hvune
          · exact h'.1
        rw [htu]; exact hud
      rcases hj with ⟨h1, h2⟩ | ⟨h1, h2⟩
      · exact key (ends x).1 (ends x).2 (Or.inl rfl) hmem.1 h1 h2
      · exact key (ends x).2 (ends x).1 (Or.inr rfl) hmem.2 h2 h1
  · unfold edgesTo
    rw [List.map_flatMap, List.nodup_flatMap]
    refine ⟨?_, ?_⟩
    · intro v hv
      have hv := ho.mem_iff.1 (List.mem_filter.1 hv).1
      exact (hR.wf.inc_nodup v hv).sublist (List.Sublist.map _ List.filter_sublist)
    · have hnd2 : (order.filter (fun v => decide (cid v = c))).Nodup := hnd.filter _
      refine hnd2.imp_of_mem ?_
      intro v v' hv hv' hne x hx hx'
      obtain ⟨e, he, hex⟩ := List.mem_map.1 hx
      obtain ⟨e', he', hex'⟩ := List.mem_map.1 hx'
      have hvm := ho.mem_iff.1 (List.mem_filter.1 hv).1
      have hvm' := ho.mem_iff.1 (List.mem_filter.1 hv').1
      have hvc' : cid v' = c := by simpa using (List.mem_filter.1 hv').2
      have hed : cid (G.edge e).tgt = d := by simpa using (List.mem_filter.1 he).2
      have h1 := tgt_inc hR hvm (List.mem_filter.1 he).1
      have h2 := (uid_inc hR hvm' (List.mem_filter.1 he').1).2
      rw [hex] at h1
      rw [hex'] at h2
      rcases h1 with h | h <;> rcases h2 with h' | h' <;> rw [h] at h' <;> simp only at h'
      · exact hne h'.symm
      · rw [← h', hvc'] at hed; exact hcd hed.symm
      · rw [← h', hvc'] at hed; exact hcd hed.symm
      · exact hne h'.symm
  · exact List.nodup_range.filter _

theorem sum_flatMap_filter (L : List Nat) (inc : Nat → List Nat) (p : Nat → Bool) (f : Nat → Int) :
    ((L.flatMap inc).map (fun e => if p e then f e else 0)).sum =
      ((L.flatMap (fun v => (inc v).filter p)).map f).sum := by
  have : ∀ l : List Nat, (l.map (fun e => if p e then f e else 0)).sum = ((l.filter p).map f).sum := by
    intro l
    induction l with
    | nil => rfl
    | cons a l ih =>
      by_cases h : p a = true
      · simp [h, ih]
      · simp [h, ih]
  rw [this, List.filter_flatMap]

theorem wsum_tmpList (hR : G.Rep ends w) (hC : CoarseSpec G com cid n') {order : List Nat} (ho : order.Perm G.nodes)
    {c : Nat} (t : Nat) :
    wsum (tmpList G cid order c) t = if t ≠ c then between (G.m / 2) ends w cid c t else 0 := by
  have h1 : wsum (tmpList G cid order c) t =
      (((order.filter (fun v => cid v = c)).flatMap G.inc).map (fun e =>
        if decide (t ≠ c ∧ cid (G.edge e).tgt = t) then (G.edge e).w else 0)).sum := by
    unfold wsum tmpList
    rw [List.map_flatMap, List.map_flatMap]
    congr 1
    apply List.flatMap_congr
    intro v _
    rw [List.map_map]
    apply List.map_congr_left
    intro e _
    simp only [Function.comp, tmpEdge]
    by_cases h : cid (G.edge e).tgt ≠ c
    · simp only [if_pos h]
      by_cases h2 : cid (G.edge e).tgt = t
      · rw [if_pos h2, if_pos]; simp [h2]; rw [← h2]; exact h
      · rw [if_neg h2, if_neg]; simp [h2]
    · have h' : cid (G.edge e).tgt = c := by simpa using h
      simp only [if_neg h]
      have h3 : ¬ (decide (t ≠ c ∧ cid (G.edge e).tgt = t) = true) := by
        simp [h']
        intro h1 h2; exact h1 h2.symm
      rw [if_neg h3]
      by_cases hk : TE.none.tgt = t
      · rw [if_pos hk]; rfl
      · rw [if_neg hk]
  rw [h1]
  by_cases ht : t ≠ c
  · rw [if_pos ht]
    have h2 : ((order.filter (fun v => cid v = c)).flatMap G.inc).map (fun e =>
        if decide (t ≠ c ∧ cid (G.edge e).tgt = t) then (G.edge e).w else 0) =
        ((order.filter (fun v => cid v = c)).flatMap G.inc).map (fun e =>
        if decide (cid (G.edge e).tgt = t) then (G.edge e).w else 0) := by simp [ht]
    rw [h2, sum_flatMap_filter]
    unfold between
    rw [← ((edgesTo_uids (cid := cid) hR ho ht).map w).sum_eq, List.map_map]
    unfold edgesTo
    congr 1
    apply List.map_congr_left
    intro e he
    obtain ⟨v, hv, he⟩ := List.mem_flatMap.1 he
    have hv := ho.mem_iff.1 (List.mem_filter.1 hv).1
    exact ew_inc hR hv (List.mem_filter.1 he).1
  · rw [if_neg ht]
    apply List.sum_eq_zero
    intro z hz
    obtain ⟨e, _, rfl⟩ := List.mem_map.1 hz
    rw [if_neg]; simp; intro h; exact absurd h ht

theorem mem_tmpList_valid (hR : G.Rep ends w) {order : List Nat} (ho : order.Perm G.nodes)
    {c : Nat} {x : TE} (hx : x ∈ tmpList G cid order c) (hv : x.valid = true) :
    x.tgt ≠ c ∧ ∃ e ∈ edgesTo G cid order c x.tgt, (G.edge e).uid = x.id := by
  unfold tmpList at hx
  obtain ⟨v, hvm, hx⟩ := List.mem_flatMap.1 hx
  obtain ⟨e, he, rfl⟩ := List.mem_map.1 hx
  have hvm' := List.mem_filter.1 hvm
  unfold tmpEdge at hv ⊢
  by_cases h : cid (G.edge e).tgt ≠ c
  · simp only [if_pos h] at hv ⊢
    refine ⟨h, e, ?_, rfl⟩
    rw [mem_edgesTo ho]
    exact ⟨v, ho.mem_iff.1 hvm'.1, by simpa using hvm'.2, he, rfl⟩
  · simp only [if_neg h] at hv
    simp [TE.none, TE.valid] at hv

theorem between_pos (hR : G.Rep ends w) {c d x : Nat} (hx : x < G.m / 2) (hj : Joins ends cid c d x) :
    0 < between (G.m / 2) ends w cid c d := by
  unfold between
  have hmem : x ∈ (List.range (G.m / 2)).filter (fun x => decide (Joins ends cid c d x)) :=
    List.mem_filter.2 ⟨List.mem_range.2 hx, by simpa using hj⟩
  have hall : ∀ y ∈ (List.range (G.m / 2)).filter (fun x => decide (Joins ends cid c d x)), 0 < w y :=
    fun y hy => hR.pos y (List.mem_range.1 (List.mem_filter.1 hy).1)
  generalize (List.range (G.m / 2)).filter (fun x => decide (Joins ends cid c d x)) = L at *
  have : ∀ L : List Nat, (∀ y ∈ L, 0 < w y) → 0 ≤ (L.map w).sum := by
    intro L hL
    induction L with
    | nil => simp
    | cons a L ih =>
      have := hL a (List.mem_cons_self ..)
      have := ih (fun y hy => hL y (List.mem_cons_of_mem _ hy))
      simp only [List.map_cons, List.sum_cons]; omega
  cases L with
  | nil => simp at hmem
  | cons a L =>
    have h1 := hall a (List.mem_cons_self ..)
    have h2 := this L (fun y hy => hall y (List.mem_cons_of_mem _ hy))
    simp only [List.map_cons, List.sum_cons]; omega

theorem joins_lt (hR : G.Rep ends w) (hC : CoarseSpec G com cid n') {c d x : Nat} (hx : x < G.m / 2)
    (hj : Joins ends cid c d x) : c < n' ∧ d < n' := by
  have hm := hR.wf.ends_mem x (List.mem_range.2 hx)
  have h1 := hC.lt _ hm.1
  have h2 := hC.lt _ hm.2
  rcases hj with ⟨rfl, rfl⟩ | ⟨rfl, rfl⟩
  · exact ⟨h1, h2⟩
  · exact ⟨h2, h1⟩

theorem mem_canon {M : Nat} {c : Nat} {y : TE} :
    y ∈ canon M n' ends w cid c ↔ ∃ d x, d < n' ∧ d ≠ c ∧ x < M ∧ Joins ends cid c d x ∧
      (∀ z < M, Joins ends cid c d z → x ≤ z) ∧ y = { tgt := d, w := between M ends w cid c d, id := x } := by
  unfold canon
  simp only [List.mem_map, List.mem_filter, List.mem_range, Bool.and_eq_true, decide_eq_true_eq, List.any_eq_true]
  constructor
  · rintro ⟨d, ⟨hd, hdc, x, hx, hj⟩, rfl⟩
    obtain ⟨y, hy, hpy, hyM, hmin⟩ := find_range (p := fun x => decide (Joins ends cid c d x)) hx (by simpa using hj)
    refine ⟨d, y, hd, hdc, hyM, by simpa using hpy, fun z hz hjz => hmin z hz (by simpa using hjz), ?_⟩
    rw [hy]; rfl
  · rintro ⟨d, x, hd, hdc, hx, hj, hmin, rfl⟩
    refine ⟨d, ⟨hd, hdc, x, hx, hj⟩, ?_⟩
    obtain ⟨y, hy, hpy, hyM, hmin'⟩ := find_range (p := fun x => decide (Joins ends cid c d x)) hx (by simpa using hj)
    rw [hy]
    have h1 := hmin y hyM (by simpa using hpy)
    have h2 := hmin' x hx (by simpa using hj)
    simp only [Option.getD_some, TE.mk.injEq, true_and]
    omega

theorem canon_summ (hR : G.Rep ends w) (hC : CoarseSpec G com cid n') {order : List Nat} (ho : order.Perm G.nodes)
    (c : Nat) : Summ (tmpList G cid order c) (canon (G.m / 2) n' ends w cid c) := by
  refine ⟨?_, ?_, ?_, ?_⟩
  · intro y hy
    obtain ⟨d, x, hd, hdc, hx, hj, _, rfl⟩ := mem_canon.1 hy
    refine ⟨between_pos hR hx hj, ?_⟩
    have := hC.le; have := hR.small; simp only; omega
  · intro t
    rw [wsum_tmpList hR hC ho]
    by_cases hex : t ≠ c ∧ ∃ x < G.m / 2, Joins ends cid c t x
    · obtain ⟨htc, x, hx, hj⟩ := hex
      rw [if_pos htc]
      obtain ⟨y, hy, hpy, hyM, hmin⟩ := find_range (p := fun x => decide (Joins ends cid c t x)) hx (by simpa using hj)
      have hmem : ({ tgt := t, w := between (G.m / 2) ends w cid c t, id := y } : TE) ∈ canon (G.m / 2) n' ends w cid c :=
        mem_canon.2 ⟨t, y, (joins_lt hR hC hx hj).2, htc, hyM, by simpa using hpy,
          fun z hz hjz => hmin z hz (by simpa using hjz), rfl⟩
      have hs := canon_sorted (G.m / 2) n' ends w cid c
      generalize canon (G.m / 2) n' ends w cid c = L at hmem hs
      clear hy hpy hmin
      induction L with
      | nil => simp at hmem
      | cons a L ih =>
        have hp := List.pairwise_cons.1 hs
        rw [wsum_cons]
        rcases List.mem_cons.1 hmem with rfl | hm
        · have : wsum L t = 0 := by
            unfold wsum
            apply List.sum_eq_zero
            intro z hz
            obtain ⟨b, hb, rfl⟩ := List.mem_map.1 hz
            rw [if_neg]; have := hp.1 b hb; simp only at this; omega
          simp [this]
        · rw [if_neg, ih hm hp.2]; · omega
          have := hp.1 _ hm; simp only at this; omega
    · have h0 : wsum (canon (G.m / 2) n' ends w cid c) t = 0 := by
        unfold wsum
        apply List.sum_eq_zero
        intro z hz
        obtain ⟨b, hb, rfl⟩ := List.mem_map.1 hz
        obtain ⟨d, x, hd, hdc, hx, hj, _, rfl⟩ := mem_canon.1 hb
        rw [if_neg]
        rintro rfl
        exact hex ⟨hdc, x, hx, hj⟩
      rw [h0]
      split_ifs with htc
      · unfold between
        have : (List.range (G.m / 2)).filter (fun x => decide (Joins ends cid c t x)) = [] := by
          rw [List.filter_eq_nil_iff]
          intro x hx hj
          exact hex ⟨htc, x, List.mem_range.1 hx, by simpa using hj⟩
        rw [this]; rfl
      · rfl
  · intro x hx hv
    obtain ⟨htc, e, he, hid⟩ := mem_tmpList_valid hR ho hx hv
    have hperm := edgesTo_uids (cid := cid) hR ho (c := c) (d := x.tgt) htc
    have := hperm.mem_iff.1 (List.mem_map.2 ⟨e, he, rfl⟩)
    rw [hid] at this
    have h1 := List.mem_filter.1 this
    obtain ⟨y, hy, hpy, hyM, hmin⟩ := find_range (p := fun z => decide (Joins ends cid c x.tgt z))
      (List.mem_range.1 h1.1) h1.2
    refine ⟨{ tgt := x.tgt, w := between (G.m / 2) ends w cid c x.tgt, id := y }, ?_, rfl, ?_⟩
    · exact mem_canon.2 ⟨x.tgt, y, (joins_lt hR hC hyM (by simpa using hpy)).2, htc, hyM, by simpa using hpy,
        fun z hz hjz => hmin z hz (by simpa using hjz), rfl⟩
    · exact hmin x.id (List.mem_range.1 h1.1) h1.2
  · intro y hy
    obtain ⟨d, x, hd, hdc, hx, hj, _, rfl⟩ := mem_canon.1 hy
    have hperm := edgesTo_uids (cid := cid) hR ho (c := c) (d := d) hdc
    have := hperm.mem_iff.2 (List.mem_filter.2 ⟨List.mem_range.2 hx, by simpa using hj⟩)
    obtain ⟨e, he, hex⟩ := List.mem_map.1 this
    obtain ⟨v, hv, hvc, hinc, htd⟩ := (mem_edgesTo ho).1 he
    refine ⟨tmpEdge G cid c e, ?_, ?_, ?_, ?_⟩
    · unfold tmpList
      exact List.mem_flatMap.2 ⟨v, List.mem_filter.2 ⟨ho.mem_iff.2 hv, by simpa using hvc⟩, List.mem_map.2 ⟨e, hinc, rfl⟩⟩
    all_goals
      unfold tmpEdge
      dsimp only
      rw [if_pos (by rw [htd]; exact hdc)]
    · have h1 := ew_inc hR hv hinc
      have h2 := hR.pos _ (uid_inc hR hv hinc).1
      simp [TE.valid]; omega
    · exact htd
    · exact hex

end
end SG
end Verif
