import Verif.Lemmas.FileIO4
/-!
# C22: reading hMetis files

`Text.HgrFile D s` (Spec/FileFormat.lean) says that `s` is the text of an hMetis file for the hypergraph `D`.
-/
namespace Verif
namespace FileIO
open Text
open SMap (wr)

variable {f : File}

theorem At.end_ : At f f.length [] := ⟨f.bytes, by simp, rfl⟩

/-- `remove` drops hyperedges that contain a single node -/
def Listed (l pins : List Nat) : Prop := pins.Pairwise (· < ·) ∧ ∀ v, v ∈ pins ↔ v ∈ l

theorem listed_dedup (l : List Nat) : Listed l (Factory.dedupPins l) := by
  rw [Factory.dedupPins_eq]
  exact ⟨uniq_sorted (sortIds_sorted l), fun v => by rw [mem_uniq, mem_sortIds]⟩

theorem listed_len {l pins : List Nat} (h : Listed l pins) : decide (pins.length > 1) = l.any (fun u => l.any (fun v => decide (v ≠ u))) := by
  rw [Bool.eq_iff_iff]
  simp only [decide_eq_true_eq, List.any_eq_true]
  constructor
  · intro h1
    match pins, h, h1 with
    | a :: b :: rest, h, _ =>
      refine ⟨a, (h.2 a).1 (by simp), b, (h.2 b).1 (by simp), ?_⟩
      have := (List.pairwise_cons.1 h.1).1 b (by simp)
      omega
  · rintro ⟨u, hu, v, hv, hne⟩
    have h1 := (h.2 u).2 hu
    have h2 := (h.2 v).2 hv
    match pins, h1, h2 with
    | [a], h1, h2 => simp at h1 h2; omega
    | a :: b :: rest, _, _ => simp

theorem kept_flatten (remove : Bool) (loc : List (List (Nat × List Nat))) : (loc.map (kept remove)).flatten = kept remove loc.flatten := by
  unfold kept
  induction loc with
  | nil => rfl
  | cons l loc ih => simp only [List.map_cons, List.flatten_cons, List.filter_append, ih]

theorem kept_length (remove : Bool) (l : List (Nat × List Nat)) : (kept remove l).length ≤ l.length := List.length_filter_le _ _

theorem removed_sum (remove : Bool) (loc : List (List (Nat × List Nat))) :
    (loc.map (fun l => l.length - (kept remove l).length)).sum + (kept remove loc.flatten).length = loc.flatten.length := by
  rw [← kept_flatten]
  induction loc with
  | nil => rfl
  | cons l loc ih =>
    have := kept_length remove l
    simp only [List.map_cons, List.sum_cons, List.flatten_cons, List.length_append]
    omega

theorem flatten_replicate_nil {α : Type} (n : Nat) : (List.replicate n ([] : List α)).flatten = [] := by
  simp

theorem tail_at {u : List Char} {pos' : Nat} (h : (hd u ≠ '%' ∧ At f pos' u) ∨ (End u ∧ pos' = f.length)) (hu : hd u ≠ '%') : At f pos' u := by
  rcases h with h | ⟨h, rfl⟩
  · exact h.2
  · rcases h with rfl | ⟨b, -, rfl⟩
    · exact At.end_
    · exact absurd rfl hu

theorem tail_end {u : List Char} {pos' : Nat} (h : (hd u ≠ '%' ∧ At f pos' u) ∨ (End u ∧ pos' = f.length)) (hu : End u) : At f pos' [] := by
  rcases h with ⟨h, h2⟩ | ⟨h, rfl⟩
  · rcases hu with rfl | ⟨b, -, rfl⟩
    · exact h2
    · exact absurd rfl h
  · exact At.end_

/-- **C22**: an hMetis file of a hypergraph — with comments, any spacing, LF or CRLF line ends, for any number of
parallel ranges and any order of the parallel copies — is read as this hypergraph: hyperedges in the order of the file,
each as the increasing list of its distinct pins, with its weight, the node weights; with `remove`, the hyperedges with a
single pin are left out and counted.  The page size must not divide the length of the file. -/
theorem C22_read_hypergraph (D : HgrDesc) (hD : D.Valid) (f : File) (hfile : HgrFile D f.bytes)
    (hpage : 0 < f.page ∧ f.bytes.length % f.page ≠ 0) (R : Nat) (hR : 0 < R) (ord : Nat → List Nat)
    (hord : ∀ i k, k < R → k ∈ ord i) (remove : Bool) :
    ∃ r, readHypergraph f R ord remove = .ok r ∧
      r.numNodes = D.n ∧ r.nodeWeights = D.vw ∧
      (let keep := D.edges.filter (fun e => !remove || e.2.any (fun u => e.2.any (fun v => decide (v ≠ u))))
       r.numHyperedges = keep.length ∧ r.numRemoved = D.edges.length - keep.length ∧
       List.Forall₂ (fun e pins => pins.Pairwise (· < ·) ∧ ∀ v, v ∈ pins ↔ v ∈ e.2) keep r.hyperedges ∧
       r.edgeWeights = if D.ew then some (keep.map (·.1)) else none) := by
  have hg : Good f := hpage
  obtain ⟨l, e, s0, s1, s2, s3, s4, hc0, hh, he, hlines, hc1, hvw, hc3, hend⟩ := hfile
  have he' : Eol e ∨ (e = [] ∧ s0 = []) := he.imp id (fun h => ⟨h.1, h.2.1⟩)
  obtain ⟨p0, hhead, hat0, hnl0⟩ := readHeader_spec hg hc0 hh he' hD.m hD.n
  -- what is behind the lines
  have htail : ∃ u, Comments s1 u ∧ (hd u ≠ '%' ∨ End u) ∧ (∀ pos', ((hd u ≠ '%' ∧ At f pos' u) ∨ (End u ∧ pos' = f.length)) →
      ∃ p2, (if D.vw.isSome then do let (l, pos) ← readWeights f D.n pos'; .ok (some l, pos) else .ok (none, pos') : M (Option (List Nat) × Nat)) = .ok (D.vw, p2) ∧
        skipComments f (f.length + 1) p2 = .ok f.length) := by
    have hskip0 : ∀ pos', At f pos' [] → skipComments f (f.length + 1) pos' = .ok f.length := by
      intro pos' h
      exact skipComments_end hg (.nil []) (Or.inl rfl) _ _ h (by simp)
    cases hv : D.vw with
    | none =>
      rw [hv] at hvw
      have hvw : s3 = s2 := hvw
      subst hvw
      refine ⟨s4, Comments.trans hc1 hc3, Or.inr hend, ?_⟩
      intro pos' hp
      exact ⟨pos', rfl, hskip0 _ (tail_end hp hend)⟩
    | some ws =>
      rw [hv] at hvw
      have hvw : Plain ws s2 s3 := hvw
      obtain ⟨hwl, hww⟩ := hD.vw ws hv
      cases ws with
      | nil =>
        cases hvw
        refine ⟨s4, Comments.trans hc1 hc3, Or.inr hend, ?_⟩
        intro pos' hp
        refine ⟨pos', ?_, hskip0 _ (tail_end hp hend)⟩
        rw [← hwl]
        rfl
      | cons w ws =>
        have hne : hd s2 ≠ '%' := by
          cases hvw with
          | cons hl he hs => exact Line.hd_ne hl he
        refine ⟨s2, hc1, Or.inl hne, ?_⟩
        intro pos' hp
        obtain ⟨p2, h1, h2⟩ := readWeights_spec hg hvw pos' (tail_at hp hne) hww
        refine ⟨p2, ?_, ?_⟩
        · rw [hwl] at h1
          simp only [Option.isSome_some, if_true, h1, ok_bind]
        · have := h2.len
          exact skipComments_end hg hc3 hend _ _ h2 (by omega)
  obtain ⟨u, hcu, hu, hrest⟩ := htail
  have hnl : AfterNl f p0 ∨ D.edges.map D.toks = [] := by
    rcases he with he | ⟨-, -, h⟩
    · exact Or.inl (hnl0 he)
    · exact Or.inr (by rw [h]; rfl)
  obtain ⟨pos', rs, ls, N', k1, k2, k3, k4, k5, k6⟩ := splitLines_spec hg hR hlines hat0 hnl hcu hu
  obtain ⟨p2, hvws, hfinal⟩ := hrest pos' k2
  rw [List.length_map] at k1 k5
  -- the lines
  let g : Nat × List Nat → Nat × List Nat := fun e => (if D.ew then e.1 else 0, Factory.dedupPins e.2)
  have hN : N' = D.edges.length := by
    rcases k5 with k5 | ⟨k5, k7⟩
    · exact k5
    · exfalso
      have hlt : N' < D.edges.length := by omega
      rw [List.getD_eq_getElem?_getD, List.getElem?_map, List.getElem?_eq_getElem hlt] at k7
      simp only [Option.map_some, Option.getD_some] at k7
      unfold HgrDesc.toks at k7
      have := (hD.pins D.edges[N'] (List.getElem_mem hlt)).1
      simp at k7
      exact this k7.2
  have hreads : Reads f (fun _ fin pos => readHyperedge f D.n D.ew fin pos) (D.edges.map D.toks) (fun k => g (D.edges.getD k (0, []))) := by
    intro k hk fin pos l e s' h1 h2 h3 h4
    rw [List.length_map] at hk
    have hmem := List.getElem_mem hk
    rw [List.getD_eq_getElem?_getD, List.getElem?_map, List.getElem?_eq_getElem hk] at h1
    have hgd : D.edges.getD k (0, []) = D.edges[k] := by
      rw [List.getD_eq_getElem?_getD, List.getElem?_eq_getElem hk]; rfl
    dsimp only
    rw [hgd]
    exact readHyperedge_spec hg h1 h2 h3 h4 (hD.pins _ hmem).1 (hD.pins _ hmem).2 hD.n (fun h => hD.weights h _ hmem)
  obtain ⟨loc, m1, m2, m3⟩ := readRanges_spec hg hreads k3 k4 (by rw [List.length_map]; omega) k6
  have hflat : loc.flatten = D.edges.map g := by
    rw [m3, hN, Nat.sub_zero, ← List.range_eq_range']
    apply List.ext_getElem
    · simp
    · intro i h1 h2
      simp at h1
      simp [List.getD_eq_getElem?_getD, List.getElem?_eq_getElem h1]
  let keep := D.edges.filter (fun e => !remove || e.2.any (fun u => e.2.any (fun v => decide (v ≠ u))))
  have hkeep : kept remove loc.flatten = keep.map g := by
    rw [hflat]
    unfold kept
    rw [List.filter_map]
    congr 1
    apply List.filter_congr
    intro e _
    simp only [Function.comp_apply]
    rw [listed_len (listed_dedup e.2)]
  have hrem := removed_sum remove loc
  rw [hkeep, hflat, List.length_map, List.length_map] at hrem
  have hsrc : ∀ {β : Type} (h : Nat × List Nat → β), (loc.map (fun l => (kept remove l).map h) ++ List.replicate (R - rs.length) ([] : List β)).flatten = (keep.map g).map h := by
    intro β h
    rw [List.flatten_append, flatten_replicate_nil, List.append_nil]
    have : loc.map (fun l => (kept remove l).map h) = (loc.map (kept remove)).map (List.map h) := by rw [List.map_map]; rfl
    rw [this, ← List.map_flatten, kept_flatten, hkeep]
  have hlenR : ∀ {β : Type} (h : Nat × List Nat → β), (loc.map (fun l => (kept remove l).map h) ++ List.replicate (R - rs.length) ([] : List β)).length = R := by
    intro β h; simp [m2]; omega
  have hsize : D.edges.length - (loc.map (fun l => l.length - (kept remove l).length)).sum = keep.length := by omega
  have hcopy : ∀ {β : Type} (h : Nat × List Nat → β) (d : β) (i : Nat),
      (List.range keep.length).map (copyToGlobal (loc.map (fun l => (kept remove l).map h) ++ List.replicate (R - rs.length) ([] : List β)) keep.length (fun _ => d) (ord i)).1 = (keep.map g).map h := by
    intro β h d i
    have := (copyToGlobal_spec (loc.map (fun l => (kept remove l).map h) ++ List.replicate (R - rs.length) ([] : List β)) (fun _ => d) d (ord i) (by rw [hlenR]; exact hord i)).1
    rw [hsrc] at this
    simpa using this
  refine ⟨⟨keep.length, D.n, D.edges.length - keep.length, (keep.map g).map (·.2), if D.ew then some ((keep.map g).map (·.1)) else none, D.vw⟩, ?_, rfl, rfl, rfl, rfl, ?_, ?_⟩
  · unfold readHypergraph
    rw [hhead, ok_bind]
    dsimp only
    rw [k1, ok_bind]
    dsimp only
    rw [m1, ok_bind]
    rw [hsize, hcopy, hcopy]
    rw [hvws, ok_bind]
    dsimp only
    rw [hfinal, ok_bind, if_neg (by simp)]
    congr 2
    omega
  · show List.Forall₂ _ keep ((keep.map g).map (·.2))
    rw [List.map_map, List.forall₂_map_right_iff]
    exact List.forall₂_same.2 (fun e _ => listed_dedup e.2)
  · show (if D.ew then some ((keep.map g).map (·.1)) else none) = if D.ew then some (keep.map (·.1)) else none
    by_cases hew : D.ew = true
    · rw [if_pos hew, if_pos hew, List.map_map]
      congr 1
      apply List.map_congr_left
      intro e _
      show (if D.ew = true then e.1 else 0) = e.1
      rw [if_pos hew]
    · rw [if_neg hew, if_neg hew]

/-! ### Whatever the file contains -/

theorem bind_ok {α β : Type} {x : M α} {g : α → M β} {b : β} (h : (x >>= g) = .ok b) : ∃ a, x = .ok a ∧ g a = .ok b := by
  cases x with
  | error e => cases h
  | ok a => exact ⟨a, rfl, h⟩

theorem digits_le {max fin : Nat} (hmax : 9 ≤ max) : ∀ (fuel pos number : Nat) {v p : Nat}, digits f max fin fuel pos number = .ok (v, p) → number ≤ max → v ≤ max := by
  intro fuel
  induction fuel with
  | zero => intro pos number v p h; cases h
  | succ fuel ih =>
    intro pos number v p h hn
    unfold digits at h
    split at h
    · obtain ⟨c, h1, h⟩ := bind_ok h
      split at h
      · obtain ⟨q, h2, h⟩ := bind_ok h
        injection h with h
        injection h with h h'
        omega
      · split at h
        · cases h
        · rename_i hdig
          dsimp only at h
          split at h
          · cases h
          · rename_i hc
            rw [Nat.not_lt, Nat.le_div_iff_mul_le (by omega)] at hc
            refine ih _ _ h ?_
            have h9 : c.toNat ≤ 57 := by
              apply Classical.byContradiction
              intro hn
              apply hdig
              have : c > '9' := by
                show '9'.toNat < c.toNat
                have e9 : '9'.toNat = 57 := by decide
                omega
              simp [this]
            have e0 : '0'.toNat = 48 := by decide
            omega
    · injection h with h
      injection h with h h'
      omega

theorem readNumber_le {max fin pos v p : Nat} (hmax : 9 ≤ max) (h : readNumber f max fin pos = .ok (v, p)) : v ≤ max := by
  unfold readNumber at h
  obtain ⟨q, -, h⟩ := bind_ok h
  obtain ⟨c, -, h⟩ := bind_ok h
  split at h
  · cases h
  · exact digits_le hmax _ _ _ h (by omega)

theorem readPins_lt {n fin : Nat} : ∀ (fuel pos : Nat) (acc : List Nat) {r : List Nat} {p : Nat}, readPins f n fin fuel pos acc = .ok (r, p) →
    (∀ v ∈ acc, v < n) → ∀ v ∈ r, v < n := by
  intro fuel
  induction fuel with
  | zero => intro pos acc r p h; cases h
  | succ fuel ih =>
    intro pos acc r p h ha
    unfold readPins at h
    obtain ⟨c, -, h⟩ := bind_ok h
    split at h
    · injection h with h
      injection h with h _
      exact h ▸ ha
    · obtain ⟨⟨pin, q⟩, h1, h⟩ := bind_ok h
      dsimp only at h
      split at h
      · cases h
      · split at h
        · cases h
        · refine ih _ _ h ?_
          intro v hv
          rcases List.mem_append.1 hv with hv | hv
          · exact ha v hv
          · simp at hv; omega

/-- what is known of a hyperedge that was read -/
def OkEdge (n : Nat) (x : Nat × List Nat) : Prop := x.1 < 2 ^ 31 ∧ x.2.Pairwise (· < ·) ∧ ∀ v ∈ x.2, v < n

theorem readHyperedge_ok {n fin pos p : Nat} {ew : Bool} {x : Nat × List Nat} (h : readHyperedge f n ew fin pos = .ok (x, p)) : OkEdge n x := by
  unfold readHyperedge at h
  obtain ⟨⟨w, q⟩, h1, h⟩ := bind_ok h
  dsimp only at h
  obtain ⟨⟨pins, q2⟩, h2, h⟩ := bind_ok h
  dsimp only at h
  obtain ⟨q3, -, h⟩ := bind_ok h
  split at h
  · cases h
  · injection h with h
    injection h with h _
    subst h
    refine ⟨?_, ?_, ?_⟩
    · show w < 2 ^ 31
      split at h1
      · have := readNumber_le (by unfold maxI32; omega) h1
        unfold maxI32 at this
        omega
      · injection h1 with h1
        injection h1 with h1 _
        omega
    · exact (listed_dedup pins).1
    · intro v hv
      exact readPins_lt _ _ _ h2 (by simp) v (((listed_dedup pins).2 v).1 hv)

theorem readRange_all {α : Type} {line : Nat → Nat → Nat → M (α × Nat)} {P : α → Prop} (hl : ∀ id fin pos x p, line id fin pos = .ok (x, p) → P x) (fin : Nat) :
    ∀ (cnt id pos : Nat) {xs : List α}, readRange f line fin cnt id pos = .ok xs → ∀ x ∈ xs, P x := by
  intro cnt
  induction cnt with
  | zero => intro id pos xs h; injection h with h; subst h; simp
  | succ cnt ih =>
    intro id pos xs h
    unfold readRange at h
    obtain ⟨q, -, h⟩ := bind_ok h
    obtain ⟨⟨y, q2⟩, h1, h⟩ := bind_ok h
    dsimp only at h
    obtain ⟨ys, h2, h⟩ := bind_ok h
    injection h with h
    subst h
    intro x hx
    rcases List.mem_cons.1 hx with rfl | hx
    · exact hl _ _ _ _ _ h1
    · exact ih _ _ h2 x hx

theorem readRanges_all {α : Type} {R : Nat} {line : Nat → Nat → Nat → M (α × Nat)} {P : α → Prop} (hl : ∀ id fin pos x p, line id fin pos = .ok (x, p) → P x)
    {rs : List LineRange} {loc : List (List α)} (h : readRanges f R line rs = .ok loc) : ∀ l ∈ loc, ∀ x ∈ l, P x := by
  unfold readRanges at h
  split at h
  · cases h
  · rename_i hR
    clear hR
    induction rs generalizing loc with
    | nil => injection h with h; subst h; simp
    | cons r rs ih =>
      rw [List.mapM_cons] at h
      obtain ⟨xs, h1, h⟩ := bind_ok h
      obtain ⟨ys, h2, h⟩ := bind_ok h
      injection h with h
      subst h
      intro l hl'
      rcases List.mem_cons.1 hl' with rfl | hl'
      · exact readRange_all hl _ _ _ _ h1
      · exact ih h2 l hl'

theorem copyToGlobal_all {α : Type} {source : List (List α)} {size : Nat} {d : α} {P : α → Prop} (hd : P d) (hs : ∀ l ∈ source, ∀ x ∈ l, P x) (ord : List Nat) (i : Nat) :
    P ((copyToGlobal source size (fun _ => d) ord).1 i) := by
  unfold copyToGlobal
  dsimp only
  suffices H : ∀ (ord : List Nat) (t : Nat → α), P (t i) →
      P ((ord.foldl (fun t i => copyOne size ((source.take i).map List.length).sum t (source.getD i [])) t) i) from H ord _ hd
  intro ord
  induction ord with
  | nil => intro t h; exact h
  | cons j ord ih =>
    intro t h
    rw [List.foldl_cons]
    apply ih
    rw [copyOne_spec]
    split
    · rename_i hc
      rw [List.getD_eq_getElem?_getD]
      cases hg : (source.getD j [])[i - ((source.take j).map List.length).sum]? with
      | none => exact h
      | some x =>
        have hmem := List.mem_of_getElem? hg
        by_cases hj : j < source.length
        · have : source.getD j [] = source[j] := by rw [List.getD_eq_getElem?_getD, List.getElem?_eq_getElem hj]; rfl
          exact hs _ (List.getElem_mem hj) x (this ▸ hmem)
        · have : source.getD j [] = [] := by rw [List.getD_eq_getElem?_getD, List.getElem?_eq_none (by omega)]; rfl
          rw [this] at hmem; simp at hmem
    · exact h

theorem readWeights_ok : ∀ (n pos : Nat) {ws : List Nat} {p : Nat}, readWeights f n pos = .ok (ws, p) → ws.length = n ∧ ∀ w ∈ ws, w < 2 ^ 31 := by
  intro n
  induction n with
  | zero =>
    intro pos ws p h
    injection h with h
    injection h with h _
    subst h; simp
  | succ n ih =>
    intro pos ws p h
    unfold readWeights at h
    split at h
    · cases h
    · obtain ⟨⟨w, q⟩, h1, h⟩ := bind_ok h
      dsimp only at h
      obtain ⟨q2, -, h⟩ := bind_ok h
      obtain ⟨⟨ws', q3⟩, h2, h⟩ := bind_ok h
      dsimp only at h
      injection h with h
      injection h with h _
      subst h
      obtain ⟨i1, i2⟩ := ih _ h2
      refine ⟨by simp [i1], ?_⟩
      intro x hx
      rcases List.mem_cons.1 hx with rfl | hx
      · have := readNumber_le (by unfold maxI32; omega) h1
        unfold maxI32 at this
        omega
      · exact i2 x hx

/-- **C22** (any file whatsoever): if the reader returns a hypergraph, then this is well-formed: as many hyperedges
and weights as announced, every hyperedge is an increasing list of nodes below the number of nodes, weights fit into 32 bits. -/
theorem C22_result_well_formed (f : File) (R : Nat) (ord : Nat → List Nat) (remove : Bool) (r : HgrResult)
    (h : readHypergraph f R ord remove = .ok r) :
    r.hyperedges.length = r.numHyperedges ∧
    (∀ pins ∈ r.hyperedges, pins.Pairwise (· < ·) ∧ ∀ v ∈ pins, v < r.numNodes) ∧
    (∀ ws, r.edgeWeights = some ws → ws.length = r.numHyperedges ∧ ∀ w ∈ ws, w < 2 ^ 31) ∧
    (∀ ws, r.nodeWeights = some ws → ws.length = r.numNodes ∧ ∀ w ∈ ws, w < 2 ^ 31) := by
  unfold readHypergraph at h
  obtain ⟨⟨m, n, ew, vw, pos⟩, -, h⟩ := bind_ok h
  dsimp only at h
  obtain ⟨⟨pos1, rs⟩, -, h⟩ := bind_ok h
  dsimp only at h
  obtain ⟨loc, h1, h⟩ := bind_ok h
  obtain ⟨⟨vws, pos2⟩, h2, h⟩ := bind_ok h
  dsimp only at h
  obtain ⟨pos3, -, h⟩ := bind_ok h
  split at h
  · cases h
  · injection h with h
    subst h
    have hloc := readRanges_all (P := OkEdge n) (fun id fin pos x p h => readHyperedge_ok h) h1
    have hsrc : ∀ {β : Type} (g : Nat × List Nat → β) (P : β → Prop), (∀ x, OkEdge n x → P (g x)) →
        ∀ l ∈ loc.map (fun l => (kept remove l).map g) ++ List.replicate (R - rs.length) ([] : List β), ∀ x ∈ l, P x := by
      intro β g P hP l hl x hx
      rcases List.mem_append.1 hl with hl | hl
      · obtain ⟨l0, hl0, rfl⟩ := List.mem_map.1 hl
        obtain ⟨y, hy, rfl⟩ := List.mem_map.1 hx
        exact hP y (hloc l0 hl0 y (List.mem_filter.1 hy).1)
      · rw [List.eq_of_mem_replicate hl] at hx; simp at hx
    refine ⟨by simp, ?_, ?_, ?_⟩
    · intro pins hp
      obtain ⟨i, -, rfl⟩ := List.mem_map.1 hp
      exact copyToGlobal_all (P := fun pins : List Nat => pins.Pairwise (· < ·) ∧ ∀ v ∈ pins, v < n) ⟨List.Pairwise.nil, by simp⟩ (hsrc _ _ (fun x hx => hx.2)) (ord 0) i
    · intro ws hws
      dsimp only at hws
      split at hws
      · injection hws with hws
        subst hws
        refine ⟨by simp, ?_⟩
        intro w hw
        obtain ⟨i, -, rfl⟩ := List.mem_map.1 hw
        exact copyToGlobal_all (P := fun w => w < 2 ^ 31) (by omega) (hsrc _ _ (fun x hx => hx.1)) (ord 1) i
      · cases hws
    · intro ws hws
      dsimp only at hws
      subst hws
      split at h2
      · obtain ⟨⟨l, q⟩, h3, h2⟩ := bind_ok h2
        injection h2 with h2
        injection h2 with h2 _
        injection h2 with h2
        subst h2
        exact readWeights_ok _ _ h3
      · injection h2 with h2
        injection h2 with h2 _
        cases h2

theorem skipComments_rd : ∀ (fuel pos : Nat) {p : Nat}, skipComments f fuel pos = .ok p → ∃ c, rd f p = .ok c := by
  intro fuel
  induction fuel with
  | zero => intro pos p h; cases h
  | succ fuel ih =>
    intro pos p h
    unfold skipComments at h
    obtain ⟨c, h1, h⟩ := bind_ok h
    split at h
    · obtain ⟨q, -, h⟩ := bind_ok h
      exact ih _ h
    · injection h with h
      exact ⟨c, h ▸ h1⟩

theorem rd_multiple (hp : 0 < f.page) (hd : f.length % f.page = 0) : rd f f.length = .error .fault := by
  unfold rd
  rw [if_neg (by omega), if_neg]
  unfold File.mapped
  obtain ⟨k, hk⟩ := Nat.dvd_of_mod_eq_zero hd
  rw [hk]
  have : (f.page * k + f.page - 1) / f.page = k := by
    rw [show f.page * k + f.page - 1 = f.page - 1 + f.page * k by omega, Nat.add_mul_div_left _ _ hp, Nat.div_eq_of_lt (by omega)]
    omega
  rw [this, Nat.mul_comm]
  exact Nat.lt_irrefl _

/-- **Finding**: no file whose length is a multiple of the page size can be read: the parser inspects the character
behind the end of the file, which is outside of the mapping. -/
theorem C22_page_multiple_unreadable (f : File) (hp : 0 < f.page) (hd : f.bytes.length % f.page = 0) (R : Nat) (ord : Nat → List Nat) (remove : Bool) (r : HgrResult) :
    readHypergraph f R ord remove ≠ .ok r := by
  intro h
  unfold readHypergraph at h
  obtain ⟨⟨m, n, ew, vw, pos⟩, -, h⟩ := bind_ok h
  dsimp only at h
  obtain ⟨⟨pos1, rs⟩, -, h⟩ := bind_ok h
  dsimp only at h
  obtain ⟨loc, h1, h⟩ := bind_ok h
  obtain ⟨⟨vws, pos2⟩, h2, h⟩ := bind_ok h
  dsimp only at h
  obtain ⟨pos3, h3, h⟩ := bind_ok h
  split at h
  · cases h
  · rename_i hpos
    have : pos3 = f.length := by simpa using hpos
    obtain ⟨c, hc⟩ := skipComments_rd _ _ h3
    rw [this, rd_multiple hp hd] at hc
    cases hc

/-! ### Concrete files -/

/-- `% c`, `2 3 1`, `5 1 2 2`, `%x`, `7  3` with CRLF at the end -/
def exampleText : List Char := "% c\n2 3 1\n5 1 2 2\n%x\n7  3\r\n".toList

def exampleDesc : HgrDesc := ⟨3, [(5, [0, 1, 1]), (7, [2])], true, none⟩

theorem num1 (c : Char) (n : Nat) (h : '0' ≤ c ∧ c ≤ '9') (hv : c.toNat - 48 = n) : Numeral n [c] :=
  ⟨by simp, by simpa using h, by simp [value, hv]⟩

/-- the hypotheses of `C22_read_hypergraph` hold for a file with comments, weights and repeated pins -/
theorem C22_example : exampleDesc.Valid ∧ HgrFile exampleDesc exampleText := by
  refine ⟨⟨by decide, by decide, by decide, by decide, by intro l h; cases h⟩, ?_⟩
  refine ⟨"2 3 1".toList, ['\n'], "5 1 2 2\n%x\n7  3\r\n".toList, [], [], [], [], ?_, Or.inl ?_, Or.inl .lf, ?_, .nil _, rfl, .nil _, Or.inl rfl⟩
  · exact Comments.cons (body := " c".toList) (e := ['\n']) (s := "2 3 1\n5 1 2 2\n%x\n7  3\r\n".toList) (by intro c hc; revert c; decide) .lf (.nil _)
  · refine ⟨0, _, rfl, ?_, by simp⟩
    exact Toks.cons (b := 1) (num1 '2' 2 (by decide) rfl) (Or.inr (by omega)) (Toks.cons (b := 1) (num1 '3' 3 (by decide) rfl) (Or.inr (by omega))
      (Toks.cons (b := 0) (num1 '1' 1 (by decide) rfl) (Or.inl rfl) .nil))
  · refine Lines.cons (l := "5 1 2 2".toList) (e := ['\n']) (s' := "%x\n7  3\r\n".toList) (.nil _) ⟨0, _, rfl, ?_, by simp⟩ (Or.inl .lf) ?_
    · exact Toks.cons (b := 1) (num1 '5' 5 (by decide) rfl) (Or.inr (by omega)) (Toks.cons (b := 1) (num1 '1' 1 (by decide) rfl) (Or.inr (by omega))
        (Toks.cons (b := 1) (num1 '2' 2 (by decide) rfl) (Or.inr (by omega)) (Toks.cons (b := 0) (num1 '2' 2 (by decide) rfl) (Or.inl rfl) .nil)))
    · refine Lines.cons (l := "7  3".toList) (e := ['\r', '\n']) (s' := []) ?_ ⟨0, _, rfl, ?_, by simp⟩ (Or.inl .crlf) (.nil _)
      · exact Comments.cons (body := "x".toList) (e := ['\n']) (by intro c hc; revert c; decide) .lf (.nil _)
      · exact Toks.cons (b := 2) (num1 '7' 7 (by decide) rfl) (Or.inr (by omega)) (Toks.cons (b := 0) (num1 '3' 3 (by decide) rfl) (Or.inl rfl) .nil)

/-- **Finding**: a file with fewer hyperedges than announced is accepted if the missing line falls into its own range:
two hyperedges are announced, only one line follows; the second hyperedge is empty. -/
theorem C22_missing_line_accepted :
    readHypergraph ⟨"2 3\n1 2\n".toList, 4096⟩ 8 (fun _ => List.range 8) false = .ok ⟨2, 3, 0, [[0, 1], []], none, none⟩ := by
  have hd : Factory.dedupPins [0, 1] = [0, 1] := by
    rw [Factory.dedupPins_eq]
    simp [sortIds, uniq, List.mergeSort, List.MergeSort.Internal.splitInTwo, List.merge]
  have h : readHypergraph ⟨"2 3\n1 2\n".toList, 4096⟩ 8 (fun _ => List.range 8) false = .ok ⟨2, 3, 0, [Factory.dedupPins [0, 1], []], none, none⟩ := by
    with_unfolding_all rfl
  rw [h, hd]

end FileIO
end Verif
