import Verif.Lemmas.SG1
import Verif.Lemmas.Contract3
/-!
# The stages of the graph contraction
-/
namespace Verif
open SMap (wr)
namespace SG

/-! ### Chunks and buckets -/

theorem take_mul_flatten (l : List TE) (k : Nat) : ∀ T : Nat,
    ((List.range T).map (fun i => (l.drop (min l.length (i * k))).take
      (min l.length ((i + 1) * k) - min l.length (i * k)))).flatten = l.take (T * k) := by
  intro T
  induction T with
  | zero => simp
  | succ T ih =>
    rw [List.range_succ, List.map_append, List.flatten_append, ih]
    simp only [List.map_cons, List.map_nil, List.flatten_cons, List.flatten_nil, List.append_nil]
    have hmul : (T + 1) * k = T * k + k := Nat.succ_mul T k
    rw [hmul]
    by_cases h : T * k ≤ l.length
    · rw [Nat.min_eq_right h, List.take_add]
      congr 1
      by_cases h2 : T * k + k ≤ l.length
      · rw [Nat.min_eq_right h2]; congr 1; omega
      · rw [Nat.min_eq_left (by omega)]
        rw [List.take_of_length_le (by simp), List.take_of_length_le (by simp; omega)]
    · rw [Nat.min_eq_left (by omega), Nat.min_eq_left (by omega)]
      simp only [List.drop_length, List.take_nil, List.append_nil]
      rw [List.take_of_length_le (by omega), List.take_of_length_le (by omega)]

theorem chunks_flatten (T : Nat) (hT : 0 < T) (l : List TE) :
    ((List.range T).map (chunk T l)).flatten = l := by
  have := take_mul_flatten l ((l.length + T - 1) / T) T
  unfold chunk
  rw [this]
  apply List.take_of_length_le
  have h1 := Nat.div_add_mod (l.length + T - 1) T
  have h2 := Nat.mod_lt (l.length + T - 1) hT
  omega

theorem filter_flatten_perm {β : Type} (f : β → Nat) (l : List β) (L : List Nat) (hL : L.Nodup)
    (h : ∀ x ∈ l, f x ∈ L) : ((L.map (fun b => l.filter (fun x => decide (f x = b)))).flatten).Perm l := by
  induction l with
  | nil =>
    have : (L.map (fun b => ([] : List β).filter (fun x => decide (f x = b)))).flatten = [] := by
      induction L with
      | nil => rfl
      | cons a L ih => simp
    rw [this]
  | cons x l ih =>
    have ih2 := ih (fun y hy => h y (List.mem_cons_of_mem _ hy))
    have hx := h x (List.mem_cons_self ..)
    refine List.Perm.trans ?_ (List.Perm.cons x ih2)
    clear ih ih2 h
    induction L with
    | nil => simp at hx
    | cons b L ihL =>
      have hnd := List.nodup_cons.1 hL
      simp only [List.map_cons, List.flatten_cons]
      by_cases hb : f x = b
      · subst hb
        have : (L.map (fun b => (x :: l).filter (fun x => decide (f x = b)))) =
            (L.map (fun b => l.filter (fun x => decide (f x = b)))) := by
          apply List.map_congr_left
          intro c hc
          rw [List.filter_cons_of_neg]
          simp; rintro rfl; exact hnd.1 hc
        rw [this, List.filter_cons_of_pos (by simp)]
        exact List.Perm.refl _
      · have hxL : f x ∈ L := by
          rcases List.mem_cons.1 hx with h | h
          · exact absurd h hb
          · exact h
        rw [List.filter_cons_of_neg (by simpa using hb)]
        have := ihL hnd.2 hxL
        refine (List.Perm.append_left _ this).trans ?_
        exact List.perm_middle

theorem Summ.length_le {l r : List TE} (h : Summ l r) (hs : Sorted r) : r.length ≤ l.length := by
  have hnd : (r.map TE.tgt).Nodup := by
    have : (r.map TE.tgt).Pairwise (· < ·) := List.pairwise_map.2 hs
    exact this.imp (fun h => Nat.ne_of_lt h)
  have hsub : (r.map TE.tgt) ⊆ (l.map TE.tgt) := by
    intro t ht
    obtain ⟨y, hy, rfl⟩ := List.mem_map.1 ht
    obtain ⟨x, hx, _, hxt, _⟩ := h.from_ y hy
    exact List.mem_map.2 ⟨x, hx, hxt⟩
  have := (hnd.subperm hsub).length_le
  simpa using this

theorem dedupNode_spec {s : CSched} {G : SGraph} {com : Nat → Nat} (hl : Legal s G com) (c : Nat) {l : List TE}
    (hok : Ok l) : Summ l (dedupNode s c l) ∧ Sorted (dedupNode s c l) := by
  unfold dedupNode
  split_ifs with hd
  · exact deduplicate_spec hl.srt hok
  · unfold dedupHighDegree
    dsimp only
    have hch : ∀ i, Ok (chunk s.threads l i) := fun i x hx =>
      hok x (List.mem_of_mem_drop (List.mem_of_mem_take hx))
    have h1 : Summ l ((List.range s.threads).map (fun i => deduplicate s.srt (chunk s.threads l i))).flatten := by
      have := Summ.flatten_map (List.range s.threads) (fun i => chunk s.threads l i)
        (fun i => deduplicate s.srt (chunk s.threads l i)) (fun i _ => (deduplicate_spec hl.srt (hch i)).1)
      rwa [chunks_flatten s.threads hl.threads l] at this
    generalize ((List.range s.threads).map (fun i => deduplicate s.srt (chunk s.threads l i))).flatten = items at h1
    have hins := hl.insert c items
    generalize s.insert c items = ins at hins
    have h2 : Summ l ins := h1.trans (Summ.of_perm hins.symm (fun x hx => h1.pos x (hins.mem_iff.1 hx)))
    have hokins : Ok ins := fun x hx => Or.inl (h2.pos x hx)
    let f : TE → Nat := fun t => t.tgt &&& (2 ^ s.logBuckets - 1)
    have hfil : ∀ b, Ok (ins.filter (fun t => decide (f t = b))) := fun b x hx => hokins x (List.mem_filter.1 hx).1
    let g : Nat → List TE := fun b => deduplicate s.srt (ins.filter (fun t => decide (f t = b)))
    have hbk := hl.buckets c
    have hbnd : (s.buckets c).Nodup := hbk.nodup_iff.2 List.nodup_range
    have hp : ((s.buckets c).map (fun b => ins.filter (fun t => decide (f t = b)))).flatten.Perm ins := by
      apply filter_flatten_perm f ins _ hbnd
      intro x _
      rw [hbk.mem_iff, List.mem_range]
      have : f x ≤ 2 ^ s.logBuckets - 1 := Nat.and_le_right
      have := Nat.two_pow_pos s.logBuckets
      omega
    have h3 : Summ ins ((s.buckets c).map g).flatten := by
      have := Summ.flatten_map (s.buckets c) (fun b => ins.filter (fun t => decide (f t = b))) g
        (fun b _ => (deduplicate_spec hl.srt (hfil b)).1)
      exact this.perm_left hp
    have hout : ∀ b, ∀ x ∈ g b, f x = b := by
      intro b x hx
      obtain ⟨y, hy, _, hyt, _⟩ := (deduplicate_spec hl.srt (hfil b)).1.from_ x hx
      have := (List.mem_filter.1 hy).2
      simp only [decide_eq_true_eq, f] at this ⊢
      rw [← hyt]; exact this
    have h4 := h2.trans h3
    have hps := hl.psrt c ((s.buckets c).map g).flatten
    have hdist : ((s.buckets c).map g).flatten.Pairwise (fun a b => a.tgt ≠ b.tgt) := by
      rw [List.pairwise_flatten]
      refine ⟨?_, ?_⟩
      · intro r hr
        obtain ⟨b, _, rfl⟩ := List.mem_map.1 hr
        exact (deduplicate_spec hl.srt (hfil b)).2.imp (fun h => Nat.ne_of_lt h)
      · refine List.Pairwise.map g (fun {a b} hab => ?_) hbnd
        intro x hx y hy hxy
        apply hab
        rw [← hout a x hx, ← hout b y hy]
        simp only [f, hxy]
    refine ⟨h4.trans (Summ.of_perm hps.1.symm (fun x hx => h4.pos x (hps.1.mem_iff.1 hx))), ?_⟩
    have hd2 := (hps.1.pairwise_iff (fun {a b} (h : a.tgt ≠ b.tgt) => h.symm)).2 hdist
    exact (hps.2.and hd2).imp (fun {a b} h => by omega)

/-! ### Stages 1 and 2 -/

/-- the part of a graph used in stage 1, as a hypergraph -/
def fake (G : SGraph) : SHG :=
  { n := G.n, m := 0, hnEnabled := G.enabled, hnFirst := fun _ => 0, hnSize := G.degree, hnWeight := G.nw
    heEnabled := fun _ => false, heFirst := fun _ => 0, heSize := fun _ => 0, heWeight := fun _ => 0
    incidenceArray := fun _ => 0, incidentNets := fun _ => 0, totalWeight := 0, numPins := 0, totalDegree := 0
    maxEdgeSize := 0 }

theorem mem_nodes {G : SGraph} {v : Nat} : v ∈ G.nodes ↔ v < G.n ∧ G.enabled v = true := by
  simp [SGraph.nodes]

/-- the map to coarse nodes identifies exactly the nodes of the same cluster and is onto `0 … n'-1` -/
structure CoarseSpec (G : SGraph) (com cid : Nat → Nat) (n' : Nat) : Prop where
  lt : ∀ v ∈ G.nodes, cid v < n'
  same : ∀ v ∈ G.nodes, ∀ w ∈ G.nodes, cid v = cid w ↔ com v = com w
  onto : ∀ c < n', ∃ v ∈ G.nodes, cid v = c
  le : n' ≤ G.n

theorem coarse_spec {G : SGraph} {com : Nat → Nat} {order : List Nat} (ho : order.Perm G.nodes)
    (hc : ∀ v ∈ G.nodes, com v < G.n) :
    CoarseSpec G com (coarse G com (mapping com order)) (psum (mapping com order) G.n) := by
  have h := Verif.coarse_spec (H := fake G) ho hc
  exact ⟨h.lt, h.same, h.onto, h.le⟩

theorem aggregate_spec (G : SGraph) (cid : Nat → Nat) (order : List Nat) (c : Nat) :
    (aggregate G cid order).1 c = ((order.filter (fun v => cid v = c)).map G.nw).sum ∧
    (aggregate G cid order).2 c = ((order.filter (fun v => cid v = c)).map G.degree).sum :=
  Verif.aggregate_spec (fake G) cid order c

theorem inc_length (G : SGraph) (v : Nat) : (G.inc v).length = G.degree v := by simp [SGraph.inc]

theorem copyEdges_spec (G : SGraph) (cid start deg : Nat → Nat) (tmp : Nat → TE) (order : List Nat)
    (hdisj : ∀ c d, c ≠ d → start c + deg c ≤ start d ∨ start d + deg d ≤ start c)
    (hdeg : ∀ c, ((order.filter (fun v => cid v = c)).map G.degree).sum = deg c) (c : Nat) :
    rd (copyEdges G cid start tmp order).1 (start c) (deg c) =
      (order.filter (fun v => cid v = c)).flatMap (fun v => (G.inc v).map (tmpEdge G cid c)) := by
  unfold copyEdges
  let F : Nat → Nat → List TE := fun c v => (G.inc v).map (tmpEdge G cid c)
  have hF : ∀ c v, (F c v).length = G.degree v := fun c v => by simp [F, inc_length]
  suffices K : ∀ (rest done : List Nat) (st : (Nat → TE) × (Nat → Nat)), done ++ rest = order →
      (∀ c, st.2 c = ((done.filter (fun v => cid v = c)).map G.degree).sum) →
      (∀ c, rd st.1 (start c) (st.2 c) = (done.filter (fun v => cid v = c)).flatMap (F c)) →
      ∀ c, rd (rest.foldl (fun (st : (Nat → TE) × (Nat → Nat)) v =>
        let c := cid v
        (ws st.1 (start c + st.2 c) ((G.inc v).map (tmpEdge G cid c)),
          wr st.2 c (st.2 c + G.degree v))) st).1 (start c) (deg c) =
        (order.filter (fun v => cid v = c)).flatMap (F c) by
    exact K order [] (tmp, fun _ => 0) (by simp) (by simp) (by simp [rd]) c
  intro rest
  induction rest with
  | nil =>
    intro done st hd h1 h2 c
    rw [List.append_nil] at hd
    subst hd
    rw [← hdeg, ← h1]
    exact h2 c
  | cons v rest ih =>
    intro done st hd h1 h2 c
    rw [List.foldl_cons]
    have hle : ∀ c, ((((done ++ [v]).filter (fun v => cid v = c)).map G.degree).sum) ≤ deg c := by
      intro c
      rw [← hdeg, ← hd, show v :: rest = [v] ++ rest from rfl, ← List.append_assoc, List.filter_append _ rest,
        List.map_append, List.sum_append]
      omega
    apply ih (done ++ [v])
    · simpa using hd
    · intro c
      simp only [List.filter_append, List.map_append, List.sum_append]
      by_cases hc : cid v = c
      · subst hc
        rw [wr_same, h1]
        simp
      · rw [wr_other _ _ (fun h => hc h.symm), h1]
        simp [hc]
    · intro c
      simp only [List.filter_append, List.flatMap_append]
      have hl := hle (cid v)
      rw [List.filter_append, List.map_append, List.sum_append, ← h1] at hl
      simp only [List.filter_cons, decide_true, if_true, List.filter_nil, List.map_cons, List.map_nil,
        List.sum_cons, List.sum_nil, Nat.add_zero] at hl
      by_cases hc : cid v = c
      · subst hc
        rw [wr_same, rd_append]
        congr 1
        · rw [rd_ws_disj (Or.inl (Nat.le_refl _))]
          exact h2 _
        · simp only [List.filter_cons, decide_true, if_true, List.filter_nil, List.flatMap_cons, List.flatMap_nil,
            List.append_nil]
          have := rd_ws_same (a := st.1) (s := start (cid v) + st.2 (cid v)) (l := F (cid v) v)
          rw [hF] at this
          exact this
      · rw [wr_other _ _ (fun h => hc h.symm)]
        have hl2 : st.2 c ≤ deg c := by
          rw [h1, ← hdeg, ← hd, List.filter_append, List.map_append, List.sum_append]
          omega
        rw [rd_ws_disj]
        · rw [h2]; simp [hc]
        · have := hF (cid v) v
          simp only [F] at this
          rw [this]
          rcases hdisj c (cid v) (fun h => hc h.symm) with h | h
          · left; omega
          · right; omega

/-! ### Stages 3 and 4 -/

theorem foldl_local' {S : Type} (step : S → Nat → S) (P Q : Nat → S → Prop) :
    ∀ (order : List Nat) (s : S), order.Nodup →
    (∀ s c, c ∈ order → P c s → Q c (step s c)) →
    (∀ s c d, c ∈ order → d ∈ order → d ≠ c → P c s → P d s → P d (step s c)) →
    (∀ s c d, c ∈ order → d ∈ order → d ≠ c → P c s → Q d s → Q d (step s c)) →
    (∀ c ∈ order, P c s) → ∀ c ∈ order, Q c (order.foldl step s) := by
  intro order
  induction order with
  | nil => intro s _ _ _ _ _ c hc; simp at hc
  | cons a order ih =>
    intro s hnd h1 h2 h3 h0
    have hn := List.nodup_cons.1 hnd
    rw [List.foldl_cons]
    -- the processed element stays finished
    have hQ : ∀ (l : List Nat) (s : S), (∀ c ∈ l, c ∈ order) → l.Nodup → (∀ c ∈ l, P c s) → Q a s →
        Q a (l.foldl step s) := by
      intro l
      induction l with
      | nil => intro s _ _ _ h; exact h
      | cons b l ihl =>
        intro s hl hln hP hqa
        have hnb := List.nodup_cons.1 hln
        rw [List.foldl_cons]
        have hb := hl b (List.mem_cons_self ..)
        refine ihl _ (fun c hc => hl c (List.mem_cons_of_mem _ hc)) hnb.2 ?_ ?_
        · intro c hc
          exact h2 s b c (List.mem_cons_of_mem _ hb) (List.mem_cons_of_mem _ (hl c (List.mem_cons_of_mem _ hc)))
            (fun e => hnb.1 (e ▸ hc)) (hP b (List.mem_cons_self ..)) (hP c (List.mem_cons_of_mem _ hc))
        · exact h3 s b a (List.mem_cons_of_mem _ hb) (List.mem_cons_self ..) (fun e => hn.1 (e ▸ hb))
            (hP b (List.mem_cons_self ..)) hqa
    have hP' : ∀ c ∈ order, P c (step s a) := fun c hc =>
      h2 s a c (List.mem_cons_self ..) (List.mem_cons_of_mem _ hc) (fun e => hn.1 (e ▸ hc))
        (h0 a (List.mem_cons_self ..)) (h0 c (List.mem_cons_of_mem _ hc))
    intro c hc
    rcases List.mem_cons.1 hc with rfl | hc
    · exact hQ order _ (fun d hd => hd) hn.2 hP' (h1 s c (List.mem_cons_self ..) (h0 c (List.mem_cons_self ..)))
    · exact ih (step s a) hn.2 (fun s d hd => h1 s d (List.mem_cons_of_mem _ hd))
        (fun s d e hd he => h2 s d e (List.mem_cons_of_mem _ hd) (List.mem_cons_of_mem _ he))
        (fun s d e hd he => h3 s d e (List.mem_cons_of_mem _ hd) (List.mem_cons_of_mem _ he)) hP' c hc

theorem dedupAll_spec {s : CSched} {deg : Nat → Nat} {tmp : Nat → TE} {n' : Nat} (hd : s.dedup.Perm (List.range n'))
    (hle : ∀ c < n', (dedupNode s c (rd tmp (psum deg c) (deg c))).length ≤ deg c) :
    ∀ c < n', (dedupAll s (psum deg) tmp).2 c = (dedupNode s c (rd tmp (psum deg c) (deg c))).length ∧
      rd (dedupAll s (psum deg) tmp).1 (psum deg c) (dedupNode s c (rd tmp (psum deg c) (deg c))).length =
        dedupNode s c (rd tmp (psum deg c) (deg c)) := by
  intro c hc
  have hnd : s.dedup.Nodup := hd.nodup_iff.2 List.nodup_range
  have hlt : ∀ c ∈ s.dedup, c < n' := fun c hc => List.mem_range.1 (hd.mem_iff.1 hc)
  unfold dedupAll
  have hsz : ∀ c, psum deg (c + 1) - psum deg c = deg c := fun c => by rw [psum_succ]; omega
  simp only [hsz]
  refine foldl_local' (fun (st : (Nat → TE) × (Nat → Nat)) c =>
      (ws st.1 (psum deg c) (dedupNode s c (rd st.1 (psum deg c) (deg c))),
        wr st.2 c (dedupNode s c (rd st.1 (psum deg c) (deg c))).length))
    (fun c st => rd st.1 (psum deg c) (deg c) = rd tmp (psum deg c) (deg c))
    (fun c st => st.2 c = (dedupNode s c (rd tmp (psum deg c) (deg c))).length ∧
      rd st.1 (psum deg c) (dedupNode s c (rd tmp (psum deg c) (deg c))).length =
        dedupNode s c (rd tmp (psum deg c) (deg c))) s.dedup _ hnd ?_ ?_ ?_ ?_ c (hd.mem_iff.2 (List.mem_range.2 hc))
  · intro st c _ h
    simp only [h]
    exact ⟨wr_same _ _ _, rd_ws_same⟩
  · intro st c d hc hd' hne hPc hPd
    simp only [hPc]
    rw [← hPd]
    apply rd_ws_disj
    have := hle c (hlt c hc)
    rcases psum_disj deg hne with h | h
    · left; omega
    · right; omega
  · intro st c d hc hd' hne hPc hQd
    simp only [hPc]
    refine ⟨by rw [wr_other _ _ hne]; exact hQd.1, ?_⟩
    rw [rd_ws_disj]
    · exact hQd.2
    · have := hle c (hlt c hc)
      have := hle d (hlt d hd')
      rcases psum_disj deg hne with h | h
      · left; omega
      · right; omega
  · intros; rfl

theorem wrIds_spec (l : List TE) (f : Nat → Nat) (x : Nat) :
    l.foldl (fun mp t => wr mp t.id 1) f x = if ∃ t ∈ l, t.id = x then 1 else f x := by
  induction l generalizing f with
  | nil => simp
  | cons a l ih =>
    rw [List.foldl_cons, ih]
    by_cases h : ∃ t ∈ l, t.id = x
    · rw [if_pos h, if_pos]
      obtain ⟨t, ht, hx⟩ := h; exact ⟨t, List.mem_cons_of_mem _ ht, hx⟩
    · rw [if_neg h]
      by_cases ha : a.id = x
      · subst ha; rw [wr_same, if_pos ⟨a, List.mem_cons_self .., rfl⟩]
      · rw [wr_other _ _ (fun h => ha h.symm), if_neg]
        rintro ⟨t, ht, hx⟩
        rcases List.mem_cons.1 ht with rfl | ht
        · exact ha hx
        · exact h ⟨t, ht, hx⟩

/-- the edge written for a temporary edge -/
def toEdge (c : Nat) (t : TE) : GEdge := { src := c, tgt := t.tgt, w := t.w, uid := t.id }

theorem writeEdges_spec {tmp : Nat → TE} {start size : Nat → Nat} {order : List Nat} {n' : Nat}
    (ho : order.Perm (List.range n')) (edge0 : Nat → GEdge) (D : Nat → List TE)
    (hD : ∀ c < n', rd tmp (start c) (size c) = D c) (hlen : ∀ c < n', size c = (D c).length) :
    (∀ c < n', rd (writeEdges tmp start size order edge0).1 (psum size c) (size c) = (D c).map (toEdge c)) ∧
    ∀ x, (writeEdges tmp start size order edge0).2 x = if ∃ c < n', ∃ t ∈ D c, t.id = x then 1 else 0 := by
  have hnd : order.Nodup := ho.nodup_iff.2 List.nodup_range
  have hlt : ∀ c ∈ order, c < n' := fun c hc => List.mem_range.1 (ho.mem_iff.1 hc)
  constructor
  · intro c hc
    unfold writeEdges
    have key := foldl_local' (fun (st : (Nat → GEdge) × (Nat → Nat)) c =>
        (ws st.1 (psum size c) ((rd tmp (start c) (size c)).map (fun t => { src := c, tgt := t.tgt, w := t.w, uid := t.id })),
          (rd tmp (start c) (size c)).foldl (fun mp t => wr mp t.id 1) st.2))
      (fun _ _ => True) (fun c st => rd st.1 (psum size c) (size c) = (D c).map (toEdge c)) order
      (edge0, fun _ => 0) hnd ?_ ?_ ?_ (by intros; trivial) c (ho.mem_iff.2 (List.mem_range.2 hc))
    · exact key
    · intro st c hc _
      have h1 := hD c (hlt c hc)
      have h2 := hlen c (hlt c hc)
      simp only [h1]
      have := rd_ws_same (a := st.1) (s := psum size c) (l := (D c).map (toEdge c))
      rw [List.length_map, ← h2] at this
      exact this
    · intros; trivial
    · intro st c d hc hd hne _ hQ
      rw [← hQ]
      apply rd_ws_disj
      rw [List.length_map, rd_length]
      rcases psum_disj size hne with h | h
      · left; omega
      · right; omega
  · intro x
    unfold writeEdges
    suffices K : ∀ (L : List Nat) (st : (Nat → GEdge) × (Nat → Nat)), (∀ c ∈ L, c < n') →
        (L.foldl (fun (st : (Nat → GEdge) × (Nat → Nat)) c =>
          let l := rd tmp (start c) (size c)
          (ws st.1 (psum size c) (l.map (fun t => { src := c, tgt := t.tgt, w := t.w, uid := t.id })),
            l.foldl (fun mp t => wr mp t.id 1) st.2)) st).2 x = if ∃ c ∈ L, ∃ t ∈ D c, t.id = x then 1 else st.2 x by
      rw [K order (edge0, fun _ => 0) hlt]
      have hiff : (∃ c ∈ order, ∃ t ∈ D c, t.id = x) ↔ (∃ c < n', ∃ t ∈ D c, t.id = x) := by
        simp only [ho.mem_iff, List.mem_range]
      by_cases h : ∃ c < n', ∃ t ∈ D c, t.id = x
      · rw [if_pos h, if_pos (hiff.2 h)]
      · rw [if_neg h, if_neg (fun h' => h (hiff.1 h'))]
    intro L
    induction L with
    | nil => intro st _; simp
    | cons c L ih =>
      intro st hL
      rw [List.foldl_cons, ih _ (fun d hd => hL d (List.mem_cons_of_mem _ hd))]
      have h1 := hD c (hL c (List.mem_cons_self ..))
      simp only [h1]
      rw [wrIds_spec]
      by_cases h : ∃ d ∈ L, ∃ t ∈ D d, t.id = x
      · rw [if_pos h, if_pos]
        obtain ⟨d, hd, ht⟩ := h; exact ⟨d, List.mem_cons_of_mem _ hd, ht⟩
      · rw [if_neg h]
        by_cases h2 : ∃ t ∈ D c, t.id = x
        · rw [if_pos h2, if_pos ⟨c, List.mem_cons_self .., h2⟩]
        · rw [if_neg h2, if_neg]
          rintro ⟨d, hd, ht⟩
          rcases List.mem_cons.1 hd with rfl | hd
          · exact h2 ht
          · exact h ⟨d, hd, ht⟩

end SG
end Verif
