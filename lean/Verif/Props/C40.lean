import Verif.Props.C22
/-!
# C40: reading Metis files

`Text.MetisFile D s` (Spec/FileFormat.lean) says that `s` is the text of a Metis file for the graph `D`.
-/
namespace Verif
namespace FileIO
open Text
open SMap (wr)

variable {f : File}

theorem forwards_eq (vs : List (Nat × List (Nat × Nat))) (u : Nat) :
    forwards u vs = ((List.range vs.length).map (fun i => forward (u + i) (vs.getD i (0, [])).2)).flatten := by
  induction vs generalizing u with
  | nil => rfl
  | cons v vs ih =>
    unfold forwards
    rw [ih, List.length_cons, List.range_succ_eq_map, List.map_cons, List.flatten_cons, List.map_map]
    congr 2
    apply List.map_congr_left
    intro i _
    simp only [Function.comp_apply, Nat.succ_eq_add_one, List.getD_cons_succ]
    congr 1; omega

/-- the node weights written by the lines `0, …, N - 1` -/
theorem weights_fold (g : Nat → Nat × Nat × List (Nat × Nat × Nat)) (hg : ∀ k, (g k).1 = k) (N v : Nat) :
    (((List.range N).map g).foldl (fun (t : Nat → Nat) x => wr t x.1 x.2.1) (fun _ => 0)) v = if v < N then (g v).2.1 else 0 := by
  induction N with
  | zero => rfl
  | succ N ih =>
    rw [List.range_succ, List.map_append, List.foldl_append]
    simp only [List.map_cons, List.map_nil, List.foldl_cons, List.foldl_nil]
    rw [hg]
    by_cases hv : v = N
    · subst hv; rw [wr_same, if_pos (by omega)]
    · rw [wr_other _ _ hv, ih]
      by_cases h : v < N
      · rw [if_pos h, if_pos (by omega)]
      · rw [if_neg h, if_neg (by omega)]

/-- **C40**: a Metis file of a graph — with comments, any spacing, LF or CRLF line ends, for any number of parallel
ranges and any order of the parallel copies — is read as this graph: the edges to larger neighbours in the order of the
file with their weights, and the node weights.  The page size must not divide the length of the file. -/
theorem C40_read_graph (D : MetisDesc) (hD : D.Valid) (f : File) (hfile : MetisFile D f.bytes)
    (hpage : 0 < f.page ∧ f.bytes.length % f.page ≠ 0) (R : Nat) (hR : 0 < R) (ord : Nat → List Nat)
    (hord : ∀ i k, k < R → k ∈ ord i) :
    readGraph f R ord = .ok ⟨(forwards 0 D.verts).length, D.verts.length, (forwards 0 D.verts).map (fun e => (e.1, e.2.1)),
      if D.ew then some ((forwards 0 D.verts).map (·.2.2)) else none, if D.vw then some (D.verts.map (·.1)) else none⟩ := by
  have hg : Good f := hpage
  obtain ⟨l, e, s0, s1, s2, hc0, hh, he, hlines, hc1, hend⟩ := hfile
  have he' : Eol e ∨ (e = [] ∧ s0 = []) := he.imp id (fun h => ⟨h.1, h.2.1⟩)
  obtain ⟨p0, hhead, hat0, hnl0⟩ := readHeader_spec hg hc0 hh he' hD.n hD.m
  have hnl : AfterNl f p0 ∨ D.verts.map D.toks = [] := by
    rcases he with he | ⟨-, -, h⟩
    · exact Or.inl (hnl0 he)
    · exact Or.inr (by rw [h]; rfl)
  obtain ⟨pos', rs, ls, N', k1, k2, k3, k4, k5, k6⟩ := splitLines_spec hg hR hlines hat0 hnl hc1 (Or.inr hend)
  rw [List.length_map] at k1 k5
  have hfinal : skipComments f (f.length + 1) pos' = .ok f.length :=
    skipComments_end hg (.nil []) (Or.inl rfl) _ _ (tail_end k2 hend) (by simp)
  let g : Nat → Nat × Nat × List (Nat × Nat × Nat) := fun k =>
    (k, if D.vw then (D.verts.getD k (0, [])).1 else 0, ((D.verts.getD k (0, [])).2.filter (fun x => k < x.1)).map (fun x => (k, x.1, if D.ew then x.2 else 0)))
  have hreads : Reads f (fun id fin pos => readVertex f D.n D.ew D.vw id fin pos) (D.verts.map D.toks) g := by
    intro k hk fin pos l e s' h1 h2 h3 h4
    rw [List.length_map] at hk
    have hmem := List.getElem_mem hk
    rw [List.getD_eq_getElem?_getD, List.getElem?_map, List.getElem?_eq_getElem hk] at h1
    have hgd : D.verts.getD k (0, []) = D.verts[k] := by
      rw [List.getD_eq_getElem?_getD, List.getElem?_eq_getElem hk]; rfl
    show readVertex f D.n D.ew D.vw k fin pos = .ok (g k, _)
    have hgk : g k = (k, if D.vw then D.verts[k].1 else 0, (D.verts[k].2.filter (fun x => k < x.1)).map (fun x => (k, x.1, if D.ew then x.2 else 0))) := by
      show (k, if D.vw then (D.verts.getD k (0, [])).1 else 0, ((D.verts.getD k (0, [])).2.filter (fun x => k < x.1)).map (fun x => (k, x.1, if D.ew then x.2 else 0))) = _
      rw [hgd]
    rw [hgk]
    exact readVertex_spec hg h1 h2 h3 h4 (hD.adj _ hmem) hD.n (fun h => hD.ew h _ hmem) (fun h => hD.vw h _ hmem)
  obtain ⟨loc, m1, m2, m3⟩ := readRanges_spec hg hreads k3 k4 (by rw [List.length_map]; omega) k6
  rw [Nat.sub_zero, ← List.range_eq_range'] at m3
  -- a last line that is not read has no neighbours and no weight
  have hlast : N' = D.verts.length ∨ (N' + 1 = D.verts.length ∧ D.vw = false ∧ (D.verts.getD N' (0, [])).2 = []) := by
    rcases k5 with k5 | ⟨k5, k7⟩
    · exact Or.inl k5
    · have hlt : N' < D.verts.length := by omega
      have hgd : D.verts.getD N' (0, []) = D.verts[N'] := by
        rw [List.getD_eq_getElem?_getD, List.getElem?_eq_getElem hlt]; rfl
      rw [List.getD_eq_getElem?_getD, List.getElem?_map, List.getElem?_eq_getElem hlt] at k7
      simp only [Option.map_some, Option.getD_some] at k7
      unfold MetisDesc.toks at k7
      rw [List.append_eq_nil_iff] at k7
      refine Or.inr ⟨k5, ?_, ?_⟩
      · cases hv : D.vw with
        | false => rfl
        | true => rw [hv] at k7; simp at k7
      · rw [hgd]
        cases hadj : D.verts[N'].2 with
        | nil => rfl
        | cons x xs =>
          exfalso
          rw [hadj] at k7
          have := k7.2
          rw [List.map_cons, List.flatten_cons, List.append_eq_nil_iff] at this
          cases hew : D.ew <;> simp [hew] at this
  have hflat : ∀ {β : Type} (h : Nat × Nat × Nat → β),
      (loc.map (fun l => (l.map (fun x => x.2.2.map h)).flatten) ++ List.replicate (R - rs.length) ([] : List β)).flatten =
      ((List.range D.verts.length).map (fun i => (g i).2.2.map h)).flatten := by
    intro β h
    rw [List.flatten_append, flatten_replicate_nil, List.append_nil]
    have e1 : (loc.map (fun l => (l.map (fun x => x.2.2.map h)).flatten)).flatten = (loc.flatten.map (fun x => x.2.2.map h)).flatten := by
      clear m1 m2 m3
      induction loc with
      | nil => rfl
      | cons l loc ih => simp only [List.map_cons, List.flatten_cons, List.map_append, List.flatten_append, ih]
    rw [e1, m3, List.map_map]
    rcases hlast with hl | ⟨hl, -, hl2⟩
    · rw [hl]; rfl
    · rw [← hl, List.range_succ, List.map_append, List.flatten_append]
      have : (g N').2.2 = [] := by
        show ((D.verts.getD N' (0, [])).2.filter (fun x => N' < x.1)).map _ = []
        rw [hl2]; rfl
      simp only [List.map_cons, List.map_nil, this, List.flatten_cons, List.flatten_nil, List.append_nil]
      rfl
  have hfw : ∀ {β : Type} (h : Nat × Nat × Nat → β), (∀ a b c c', D.ew = false → h (a, b, c) = h (a, b, c')) →
      ((List.range D.verts.length).map (fun i => (g i).2.2.map h)).flatten = (forwards 0 D.verts).map h := by
    intro β h hh
    rw [forwards_eq, List.map_flatten, List.map_map]
    congr 1
    apply List.map_congr_left
    intro i _
    show List.map h (((D.verts.getD i (0, [])).2.filter (fun x => i < x.1)).map (fun x => (i, x.1, if D.ew then x.2 else 0))) = List.map h (forward (0 + i) (D.verts.getD i (0, [])).2)
    unfold forward
    rw [List.map_map, List.map_map, Nat.zero_add]
    apply List.map_congr_left
    intro x _
    simp only [Function.comp_apply]
    cases hew : D.ew with
    | true => simp
    | false => exact hh _ _ _ _ hew
  have hlenR : ∀ {β : Type} (h : Nat × Nat × Nat → β), (loc.map (fun l => (l.map (fun x => x.2.2.map h)).flatten) ++ List.replicate (R - rs.length) ([] : List β)).length = R := by
    intro β h; simp [m2]; omega
  have hcopy : ∀ {β : Type} (h : Nat × Nat × Nat → β) (d : β) (i : Nat), (∀ a b c c', D.ew = false → h (a, b, c) = h (a, b, c')) →
      (List.range (forwards 0 D.verts).length).map (copyToGlobal (loc.map (fun l => (l.map (fun x => x.2.2.map h)).flatten) ++ List.replicate (R - rs.length) ([] : List β))
        (forwards 0 D.verts).length (fun _ => d) (ord i)).1 = (forwards 0 D.verts).map h ∧
      (copyToGlobal (loc.map (fun l => (l.map (fun x => x.2.2.map h)).flatten) ++ List.replicate (R - rs.length) ([] : List β))
        (forwards 0 D.verts).length (fun _ => d) (ord i)).2 = (forwards 0 D.verts).length := by
    intro β h d i hh
    have := copyToGlobal_spec (loc.map (fun l => (l.map (fun x => x.2.2.map h)).flatten) ++ List.replicate (R - rs.length) ([] : List β)) (fun _ => d) d (ord i) (by rw [hlenR]; exact hord i)
    rw [hflat, hfw h hh, List.length_map] at this
    exact this
  unfold readGraph
  rw [hhead, ok_bind]
  dsimp only
  have k1 : splitLines f R p0 D.n = .ok (pos', rs) := k1
  rw [k1, ok_bind]
  dsimp only
  rw [m1, ok_bind]
  have c1 := hcopy (fun e => (e.1, e.2.1)) (0, 0) 0 (fun _ _ _ _ _ => rfl)
  rw [if_neg (by rw [c1.2]; simp), hfinal, ok_bind, if_neg (by simp), c1.1]
  have hws : (if D.ew = true then some ((List.range (forwards 0 D.verts).length).map (copyToGlobal (loc.map (fun l => (l.map (fun x => x.2.2.map (fun e => e.2.2))).flatten) ++ List.replicate (R - rs.length) [])
        (forwards 0 D.verts).length (fun _ => 0) (ord 1)).1) else none) = (if D.ew then some ((forwards 0 D.verts).map (·.2.2)) else none) := by
    by_cases hew : D.ew = true
    · rw [if_pos hew, if_pos hew, (hcopy (fun e => e.2.2) 0 1 (fun _ _ _ _ h => by rw [hew] at h; cases h)).1]
    · rw [if_neg hew, if_neg hew]
  have hvs : (if D.vw = true then some ((List.range D.n).map (loc.flatten.foldl (fun (t : Nat → Nat) x => wr t x.1 x.2.1) (fun _ => 0))) else none) = (if D.vw then some (D.verts.map (·.1)) else none) := by
    by_cases hv : D.vw = true
    · rw [if_pos hv, if_pos hv]
      congr 1
      have hN : N' = D.verts.length := by
        rcases hlast with h | ⟨-, h, -⟩
        · exact h
        · rw [hv] at h; cases h
      apply List.ext_getElem
      · simp [MetisDesc.n]
      · intro i h1 h2
        simp only [List.getElem_map, List.getElem_range]
        rw [List.length_map] at h2
        rw [m3, weights_fold g (fun _ => rfl), hN, if_pos h2]
        show (if D.vw then (D.verts.getD i (0, [])).1 else 0) = _
        rw [if_pos hv, List.getD_eq_getElem?_getD, List.getElem?_eq_getElem h2]
        rfl
    · rw [if_neg hv, if_neg hv]
  rw [hws, hvs]
  rfl

/-! ### Whatever the file contains -/

/-- what is known of a vertex that was read -/
def OkVertex (n : Nat) (x : Nat × Nat × List (Nat × Nat × Nat)) : Prop :=
  x.2.1 < 2 ^ 31 ∧ ∀ e ∈ x.2.2, e.1 < e.2.1 ∧ e.2.1 < n ∧ e.2.2 < 2 ^ 31

theorem readNeighbors_ok {n id fin : Nat} {ew : Bool} : ∀ (fuel pos : Nat) (acc : List (Nat × Nat × Nat)) {r : List (Nat × Nat × Nat)} {p : Nat},
    readNeighbors f n id ew fin fuel pos acc = .ok (r, p) → (∀ e ∈ acc, e.1 < e.2.1 ∧ e.2.1 < n ∧ e.2.2 < 2 ^ 31) → ∀ e ∈ r, e.1 < e.2.1 ∧ e.2.1 < n ∧ e.2.2 < 2 ^ 31 := by
  intro fuel
  induction fuel with
  | zero => intro pos acc r p h; cases h
  | succ fuel ih =>
    intro pos acc r p h ha
    unfold readNeighbors at h
    obtain ⟨c, -, h⟩ := bind_ok h
    split at h
    · injection h with h
      injection h with h _
      exact h ▸ ha
    · obtain ⟨⟨target, q⟩, h1, h⟩ := bind_ok h
      dsimp only at h
      split at h
      · cases h
      · split at h
        · cases h
        · obtain ⟨⟨w, q2⟩, h2, h⟩ := bind_ok h
          dsimp only at h
          refine ih _ _ h ?_
          intro e he
          split at he
          · rcases List.mem_append.1 he with he | he
            · exact ha e he
            · simp only [List.mem_singleton] at he
              subst he
              refine ⟨by assumption, ?_, ?_⟩
              · show target - 1 < n
                omega
              · show w < 2 ^ 31
                split at h2
                · have := readNumber_le (by unfold maxI32; omega) h2
                  unfold maxI32 at this
                  omega
                · injection h2 with h2
                  injection h2 with h2 _
                  omega
          · exact ha e he

theorem readVertex_ok {n id fin pos p : Nat} {ew vw : Bool} {x : Nat × Nat × List (Nat × Nat × Nat)} (h : readVertex f n ew vw id fin pos = .ok (x, p)) : OkVertex n x := by
  unfold readVertex at h
  obtain ⟨⟨w, q⟩, h1, h⟩ := bind_ok h
  dsimp only at h
  obtain ⟨⟨es, q2⟩, h2, h⟩ := bind_ok h
  dsimp only at h
  obtain ⟨q3, -, h⟩ := bind_ok h
  injection h with h
  injection h with h _
  subst h
  refine ⟨?_, readNeighbors_ok _ _ _ h2 (by simp)⟩
  show w < 2 ^ 31
  split at h1
  · have := readNumber_le (by unfold maxI32; omega) h1
    unfold maxI32 at this
    omega
  · injection h1 with h1
    injection h1 with h1 _
    omega

theorem readRanges_len {α : Type} {R : Nat} {line : Nat → Nat → Nat → M (α × Nat)} {rs : List LineRange} {loc : List (List α)}
    (h : readRanges f R line rs = .ok loc) : loc.length = rs.length ∧ rs.length ≤ R := by
  unfold readRanges at h
  split at h
  · cases h
  · rename_i hR
    refine ⟨?_, by omega⟩
    clear hR
    induction rs generalizing loc with
    | nil => injection h with h; subst h; rfl
    | cons r rs ih =>
      rw [List.mapM_cons] at h
      obtain ⟨xs, h1, h⟩ := bind_ok h
      obtain ⟨ys, h2, h⟩ := bind_ok h
      injection h with h
      subst h
      simp [ih h2]

/-- **C40** (any file whatsoever): if the reader returns a graph, it has the announced numbers of edges and weights, every
edge connects a node with a larger node below the number of nodes, and weights fit into 32 bits. -/
theorem C40_result_well_formed (f : File) (R : Nat) (ord : Nat → List Nat) (hord : ∀ i k, k < R → k ∈ ord i) (r : MetisResult)
    (h : readGraph f R ord = .ok r) :
    r.edges.length = r.numEdges ∧ (∀ e ∈ r.edges, e.1 < e.2 ∧ e.2 < r.numNodes) ∧
    (∀ ws, r.edgeWeights = some ws → ws.length = r.numEdges ∧ ∀ w ∈ ws, w < 2 ^ 31) ∧
    (∀ ws, r.nodeWeights = some ws → ws.length = r.numNodes ∧ ∀ w ∈ ws, w < 2 ^ 31) := by
  unfold readGraph at h
  obtain ⟨⟨n, m, ew, vw, pos⟩, -, h⟩ := bind_ok h
  dsimp only at h
  obtain ⟨⟨pos1, rs⟩, -, h⟩ := bind_ok h
  dsimp only at h
  obtain ⟨loc, h1, h⟩ := bind_ok h
  split at h
  · cases h
  · rename_i hm
    obtain ⟨pos3, -, h⟩ := bind_ok h
    split at h
    · cases h
    · injection h with h
      subst h
      obtain ⟨hl1, hl2⟩ := readRanges_len h1
      have hloc := readRanges_all (P := OkVertex n) (fun id fin pos x p h => readVertex_ok h) h1
      have hsrc : ∀ {β : Type} (g : Nat × Nat × Nat → β) (P : β → Prop), (∀ e : Nat × Nat × Nat, e.1 < e.2.1 ∧ e.2.1 < n ∧ e.2.2 < 2 ^ 31 → P (g e)) →
          ∀ l ∈ loc.map (fun l => (l.map (fun x => x.2.2.map g)).flatten) ++ List.replicate (R - rs.length) ([] : List β), ∀ x ∈ l, P x := by
        intro β g P hP l hl x hx
        rcases List.mem_append.1 hl with hl | hl
        · obtain ⟨l0, hl0, rfl⟩ := List.mem_map.1 hl
          obtain ⟨l1, hl1, hx⟩ := List.mem_flatten.1 hx
          obtain ⟨y, hy, rfl⟩ := List.mem_map.1 hl1
          obtain ⟨e, he, rfl⟩ := List.mem_map.1 hx
          exact hP e ((hloc l0 hl0 y hy).2 e he)
        · rw [List.eq_of_mem_replicate hl] at hx; simp at hx
      refine ⟨by simp, ?_, ?_, ?_⟩
      · have hlen : (loc.map (fun l : List (Nat × Nat × List (Nat × Nat × Nat)) => (l.map (fun x : Nat × Nat × List (Nat × Nat × Nat) => x.2.2.map (fun e : Nat × Nat × Nat => (e.1, e.2.1)))).flatten) ++ List.replicate (R - rs.length) []).length = R := by
          simp [hl1]; omega
        have htot : (loc.map (fun l : List (Nat × Nat × List (Nat × Nat × Nat)) => (l.map (fun x : Nat × Nat × List (Nat × Nat × Nat) => x.2.2.map (fun e : Nat × Nat × Nat => (e.1, e.2.1)))).flatten) ++ List.replicate (R - rs.length) []).flatten.length = m := by
          rw [List.length_flatten]
          exact Classical.byContradiction hm
        have hc := (copyToGlobal_spec (loc.map (fun l : List (Nat × Nat × List (Nat × Nat × Nat)) => (l.map (fun x : Nat × Nat × List (Nat × Nat × Nat) => x.2.2.map (fun e : Nat × Nat × Nat => (e.1, e.2.1)))).flatten) ++ List.replicate (R - rs.length) []) (fun _ => (0, 0)) (0, 0) (ord 0)
          (by rw [hlen]; exact hord 0)).1
        rw [htot] at hc
        intro e he
        dsimp only at he
        rw [hc] at he
        obtain ⟨l, hl, he⟩ := List.mem_flatten.1 he
        exact hsrc (fun e => (e.1, e.2.1)) (fun e => e.1 < e.2 ∧ e.2 < n) (fun e he => ⟨he.1, he.2.1⟩) l hl e he
      · intro ws hws
        dsimp only at hws
        split at hws
        · injection hws with hws
          subst hws
          refine ⟨by simp, ?_⟩
          intro w hw
          obtain ⟨i, -, rfl⟩ := List.mem_map.1 hw
          exact copyToGlobal_all (P := fun w => w < 2 ^ 31) (by omega) (hsrc _ _ (fun x hx => hx.2.2)) (ord 1) i
        · cases hws
      · intro ws hws
        dsimp only at hws
        split at hws
        · injection hws with hws
          subst hws
          refine ⟨by simp, ?_⟩
          intro w hw
          obtain ⟨i, -, rfl⟩ := List.mem_map.1 hw
          have hall : ∀ x ∈ loc.flatten, x.2.1 < 2 ^ 31 := by
            intro x hx
            obtain ⟨l, hl, hx⟩ := List.mem_flatten.1 hx
            exact (hloc l hl x hx).1
          suffices H : ∀ (l : List (Nat × Nat × List (Nat × Nat × Nat))) (t : Nat → Nat), (∀ x ∈ l, x.2.1 < 2 ^ 31) → t i < 2 ^ 31 →
              l.foldl (fun (t : Nat → Nat) x => wr t x.1 x.2.1) t i < 2 ^ 31 from H _ _ hall (by omega)
          intro l
          induction l with
          | nil => intro t _ h; exact h
          | cons x l ih =>
            intro t hx ht
            rw [List.foldl_cons]
            apply ih _ (fun y hy => hx y (List.mem_cons_of_mem _ hy))
            by_cases hi : i = x.1
            · rw [hi, wr_same]; exact hx x (by simp)
            · rw [wr_other _ _ hi]; exact ht
        · cases hws

/-- **Finding**: as for hMetis files, no file whose length is a multiple of the page size can be read. -/
theorem C40_page_multiple_unreadable (f : File) (hp : 0 < f.page) (hd : f.bytes.length % f.page = 0) (R : Nat) (ord : Nat → List Nat) (r : MetisResult) :
    readGraph f R ord ≠ .ok r := by
  intro h
  unfold readGraph at h
  obtain ⟨⟨n, m, ew, vw, pos⟩, -, h⟩ := bind_ok h
  dsimp only at h
  obtain ⟨⟨pos1, rs⟩, -, h⟩ := bind_ok h
  dsimp only at h
  obtain ⟨loc, h1, h⟩ := bind_ok h
  split at h
  · cases h
  · obtain ⟨pos3, h3, h⟩ := bind_ok h
    split at h
    · cases h
    · rename_i hpos
      have : pos3 = f.length := by simpa using hpos
      obtain ⟨c, hc⟩ := skipComments_rd _ _ h3
      rw [this, rd_multiple hp hd] at hc
      cases hc

/-! ### Concrete files -/

/-- a path of three vertices with edge weights 4 and 6, and an isolated vertex whose line is empty and not terminated -/
def exampleMetis : List Char := "4 2 1\n2 4\n1 4 3 6\n%\n2 6\n".toList

def exampleMetisDesc : MetisDesc := ⟨[(0, [(1, 4)]), (0, [(0, 4), (2, 6)]), (0, [(1, 6)]), (0, [])], true, false⟩

/-- the hypotheses of `C40_read_graph` hold for a file with a comment, edge weights and an isolated vertex at the end -/
theorem C40_example : exampleMetisDesc.Valid ∧ MetisFile exampleMetisDesc exampleMetis := by
  refine ⟨⟨by decide, by decide, by decide, by decide, by decide⟩, ?_⟩
  refine ⟨"4 2 1".toList, ['\n'], "2 4\n1 4 3 6\n%\n2 6\n".toList, [], [], .nil _, Or.inl ?_, Or.inl .lf, ?_, .nil _, Or.inl rfl⟩
  · refine ⟨0, _, rfl, ?_, by simp⟩
    exact Toks.cons (b := 1) (num1 '4' 4 (by decide) rfl) (Or.inr (by omega)) (Toks.cons (b := 1) (num1 '2' 2 (by decide) rfl) (Or.inr (by omega))
      (Toks.cons (b := 0) (num1 '1' 1 (by decide) rfl) (Or.inl rfl) .nil))
  · refine Lines.cons (l := "2 4".toList) (e := ['\n']) (s' := "1 4 3 6\n%\n2 6\n".toList) (.nil _) ⟨0, _, rfl, ?_, by decide⟩ (Or.inl .lf) ?_
    · exact Toks.cons (b := 1) (num1 '2' 2 (by decide) rfl) (Or.inr (by omega)) (Toks.cons (b := 0) (num1 '4' 4 (by decide) rfl) (Or.inl rfl) .nil)
    refine Lines.cons (l := "1 4 3 6".toList) (e := ['\n']) (s' := "%\n2 6\n".toList) (.nil _) ⟨0, _, rfl, ?_, by decide⟩ (Or.inl .lf) ?_
    · exact Toks.cons (b := 1) (num1 '1' 1 (by decide) rfl) (Or.inr (by omega)) (Toks.cons (b := 1) (num1 '4' 4 (by decide) rfl) (Or.inr (by omega))
        (Toks.cons (b := 1) (num1 '3' 3 (by decide) rfl) (Or.inr (by omega)) (Toks.cons (b := 0) (num1 '6' 6 (by decide) rfl) (Or.inl rfl) .nil)))
    refine Lines.cons (l := "2 6".toList) (e := ['\n']) (s' := []) ?_ ⟨0, _, rfl, ?_, by decide⟩ (Or.inl .lf) ?_
    · exact Comments.cons (body := []) (e := ['\n']) (by intro c hc; cases hc) .lf (.nil _)
    · exact Toks.cons (b := 1) (num1 '2' 2 (by decide) rfl) (Or.inr (by omega)) (Toks.cons (b := 0) (num1 '6' 6 (by decide) rfl) (Or.inl rfl) .nil)
    exact Lines.cons (l := []) (e := []) (s' := []) (.nil _) ⟨0, [], rfl, .nil, fun _ => rfl⟩ (Or.inr ⟨rfl, rfl, rfl⟩) (.nil _)

/-- **Finding**: two vertices with weights are announced, only one line follows; the second vertex gets weight 0. -/
theorem C40_missing_vertex_accepted :
    readGraph ⟨"2 0 10\n5\n".toList, 4096⟩ 8 (fun _ => List.range 8) = .ok ⟨0, 2, [], none, some [5, 0]⟩ := by
  with_unfolding_all rfl

end FileIO
end Verif
