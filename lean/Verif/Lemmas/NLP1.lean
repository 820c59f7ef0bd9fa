import Verif.Model.NLevelPartition
import Verif.Lemmas.GainCache
import Verif.Lemmas.GainInit
/-!
# Effect of the callbacks of the gain caches
-/
namespace Verif
namespace Dyn

theorem opsSum_map (Φ : Assign) (i v : Nat) (l : List Nat) (hn : l.Nodup) (f : Nat → CacheOp) (hf : ∀ u, u ≠ v → (f u).contrib Φ i = 0) :
    opsSum Φ i (l.map f) = if v ∈ l then (f v).contrib Φ i else 0 := by
  have := opsSum_flatMap Φ i v l hn (fun u => [f u]) (by intro u hu; rw [opsSum_cons, opsSum_nil, hf u hu]; rfl)
  rw [opsSum_cons, opsSum_nil, add_zero] at this
  rw [← this]
  congr 1
  induction l with
  | nil => rfl
  | cons a l ih => rw [List.map_cons, List.flatMap_cons, List.singleton_append, ih (List.nodup_cons.1 hn).2 (by
      rw [opsSum_flatMap Φ i v l (List.nodup_cons.1 hn).2 (fun u => [f u]) (by intro u hu; rw [opsSum_cons, opsSum_nil, hf u hu]; rfl), opsSum_cons, opsSum_nil, add_zero])]

theorem opsSum_flatMap_zero (Φ : Assign) (i : Nat) (l : List Nat) (f : Nat → List CacheOp) (hf : ∀ u ∈ l, opsSum Φ i (f u) = 0) :
    opsSum Φ i (l.flatMap f) = 0 := by
  induction l with
  | nil => rfl
  | cons a l ih =>
    rw [List.flatMap_cons, opsSum_append, hf a (by simp), ih (fun u hu => hf u (List.mem_cons_of_mem _ hu)), add_zero]

theorem opsSum_map_zero (Φ : Assign) (i : Nat) (l : List Nat) (f : Nat → CacheOp) (hf : ∀ u ∈ l, (f u).contrib Φ i = 0) :
    opsSum Φ i (l.map f) = 0 := by
  induction l with
  | nil => rfl
  | cons a l ih =>
    rw [List.map_cons, opsSum_cons, hf a (by simp), ih (fun u hu => hf u (List.mem_cons_of_mem _ hu)), add_zero]

/-- what the partition knows about a net is exact -/
structure NetCnt (k : Nat) (part : Assign) (pins cs : List Nat) (conn : Nat) (pc : Nat → Nat) : Prop where
  nodup : pins.Nodup
  asg : ∀ x ∈ pins, ∃ b, b < k ∧ part x = some b
  cnt : ∀ b, b < k → pc b = pins.countP (fun x => decide (part x = some b))
  csn : cs.Nodup
  csm : ∀ b, b ∈ cs ↔ b < k ∧ 0 < pc b
  conn : conn = cs.length

theorem sum_one_of (cs : List Nat) (hn : cs.Nodup) (b : Nat) : (cs.map (fun c => if b = c then 1 else 0)).sum = if b ∈ cs then 1 else 0 := by
  induction cs with
  | nil => simp
  | cons c cs ih =>
    rw [List.nodup_cons] at hn
    rw [List.map_cons, List.sum_cons, ih hn.2]
    by_cases h : b = c
    · subst h; simp [hn.1]
    · simp [h]

theorem sum_counts (part : Assign) (cs : List Nat) (hn : cs.Nodup) : ∀ (pins : List Nat), (∀ x ∈ pins, ∃ b ∈ cs, part x = some b) →
    (cs.map (fun b => pins.countP (fun x => decide (part x = some b)))).sum = pins.length := by
  intro pins
  induction pins with
  | nil => intro _; simp
  | cons x pins ih =>
    intro h
    obtain ⟨b, hb, hp⟩ := h x (by simp)
    have : (cs.map (fun b => (x :: pins).countP (fun x => decide (part x = some b)))) =
        cs.map (fun c => pins.countP (fun x => decide (part x = some c)) + if b = c then 1 else 0) := by
      apply List.map_congr_left
      intro c _
      rw [List.countP_cons, hp]
      by_cases hbc : b = c <;> simp [hbc]
    rw [this, List.sum_map_add, ih (fun y hy => h y (List.mem_cons_of_mem _ hy)), sum_one_of cs hn, if_pos hb, List.length_cons]

theorem le_sum_of_mem' {l : List Nat} {f : Nat → Nat} {b : Nat} (h : b ∈ l) : f b ≤ (l.map f).sum := by
  induction l with
  | nil => cases h
  | cons a l ih =>
    rw [List.map_cons, List.sum_cons]
    rcases List.mem_cons.1 h with rfl | h
    · omega
    · have := ih h; omega

variable {k : Nat} {part : Assign} {pins cs : List Nat} {conn : Nat} {pc : Nat → Nat}

theorem NetCnt.sum (h : NetCnt k part pins cs conn pc) : (cs.map pc).sum = pins.length := by
  rw [← sum_counts part cs h.csn pins]
  · congr 1
    apply List.map_congr_left
    intro b hb
    exact h.cnt b ((h.csm b).1 hb).1
  · intro x hx
    obtain ⟨b, hb, hp⟩ := h.asg x hx
    refine ⟨b, (h.csm b).2 ⟨hb, ?_⟩, hp⟩
    rw [h.cnt b hb]
    exact List.countP_pos_iff.2 ⟨x, hx, by simp [hp]⟩

theorem sum_filter_ne (l : List Nat) (hn : l.Nodup) (f : Nat → Nat) (c : Nat) (hc : c ∈ l) :
    f c + ((l.filter (fun b => decide (b ≠ c))).map f).sum = (l.map f).sum ∧ (l.filter (fun b => decide (b ≠ c))).length + 1 = l.length := by
  induction l with
  | nil => cases hc
  | cons a l ih =>
    rw [List.nodup_cons] at hn
    by_cases h : a = c
    · subst h
      have : (a :: l).filter (fun b => decide (b ≠ a)) = l := by
        rw [List.filter_cons_of_neg (by simp), List.filter_eq_self]
        intro x hx
        have : x ≠ a := by rintro rfl; exact hn.1 hx
        simp [this]
      rw [this]; simp
    · have hm : c ∈ l := by
        rcases List.mem_cons.1 hc with rfl | h'
        · exact absurd rfl h
        · exact h'
      obtain ⟨h1, h2⟩ := ih hn.2 hm
      rw [List.filter_cons_of_pos (by simp [h]), List.map_cons, List.sum_cons, List.map_cons, List.sum_cons, List.length_cons, List.length_cons]
      omega

/-- the blocks of a net, seen from one of its blocks -/
theorem NetCnt.cases3 (h : NetCnt k part pins cs conn pc) {blk : Nat} (hb : blk < k) (hp : 0 < pc blk) :
    (conn = 2 ∧ ∃ b', b' < k ∧ b' ≠ blk ∧ cs.find? (fun b => decide (b ≠ blk)) = some b' ∧ pc b' + pc blk = pins.length ∧ 0 < pc b' ∧
      ∀ b, b < k → b ≠ blk → b ≠ b' → pc b = 0) ∨
    (conn = 1 ∧ pc blk = pins.length ∧ ∀ b, b < k → b ≠ blk → pc b = 0) ∨
    (conn ≠ 2 ∧ conn ≠ 1 ∧ pc blk + 2 ≤ pins.length ∧ ∀ b, b < k → b ≠ blk → pc b + pc blk + 1 ≤ pins.length) := by
  have hm : blk ∈ cs := (h.csm blk).2 ⟨hb, hp⟩
  obtain ⟨h1, h2⟩ := sum_filter_ne cs h.csn pc blk hm
  rw [h.sum] at h1
  have hr : ∀ b, b < k → b ≠ blk → (b ∈ cs.filter (fun b => decide (b ≠ blk)) ↔ 0 < pc b) := by
    intro b hbk hne
    rw [List.mem_filter, h.csm]; simp [hne, hbk]
  have hnd : (cs.filter (fun b => decide (b ≠ blk))).Nodup := h.csn.filter _
  have hrm : ∀ b ∈ cs.filter (fun b => decide (b ≠ blk)), b < k ∧ b ≠ blk ∧ 0 < pc b := by
    intro b hbm
    rw [List.mem_filter, h.csm] at hbm
    exact ⟨hbm.1.1, by simpa using hbm.2, hbm.1.2⟩
  have hfind : cs.find? (fun b => decide (b ≠ blk)) = (cs.filter (fun b => decide (b ≠ blk))).head? := by rw [List.head?_filter]
  have hcn := h.conn
  rw [hfind]
  generalize cs.filter (fun b => decide (b ≠ blk)) = rest at *
  match rest, h1, h2, hr, hnd, hrm with
  | [], h1, h2, hr, _, hrm =>
    right; left
    simp only [List.map_nil, List.sum_nil, List.length_nil] at h1 h2
    refine ⟨by omega, by omega, fun b hbk hne => ?_⟩
    have := hr b hbk hne
    simp at this; omega
  | [b'], h1, h2, hr, _, hrm =>
    left
    simp only [List.map_cons, List.map_nil, List.sum_cons, List.sum_nil, List.length_cons, List.length_nil] at h1 h2
    obtain ⟨r1, r2, r3⟩ := hrm b' (by simp)
    refine ⟨by omega, b', r1, r2, rfl, by omega, r3, fun b hbk hne hne' => ?_⟩
    have := hr b hbk hne
    simp [hne'] at this; omega
  | b1 :: b2 :: t, h1, h2, hr, hnd, hrm =>
    right; right
    simp only [List.map_cons, List.sum_cons, List.length_cons] at h1 h2
    have q1 := hrm b1 (by simp)
    have q2 := hrm b2 (by simp)
    refine ⟨by omega, by omega, by omega, fun b hbk hne => ?_⟩
    by_cases hb1 : b = b1
    · subst hb1; omega
    · by_cases hb2 : b = b2
      · subst hb2; omega
      · by_cases ht : b ∈ t
        · have := le_sum_of_mem' (f := pc) ht; omega
        · have := hr b hbk hne
          simp [hb1, hb2, ht] at this; omega

/-- contribution of a net to the benefit term of `x` for block `b` -/
def netBen (o : Metrics.Obj) (w : Int) (pins : List Nat) (pc : Nat → Nat) (x b : Nat) : Int :=
  if x ∈ pins then w * benMult o pins.length (pc b) else 0

/-- contribution of a net to the penalty term of `x` -/
def netPen (o : Metrics.Obj) (w : Int) (part : Assign) (pins : List Nat) (pc : Nat → Nat) (x : Nat) : Int :=
  if x ∈ pins then match part x with
    | some p => w * penMult o pins.length (pc p)
    | none => 0
  else 0

section contrib
variable {Φ : Assign}

theorem contrib_bb {v x b b' : Nat} (a : Int) (hb : b < k) (hb' : b' < k) :
    (CacheOp.add (benIdx k v b) a).contrib Φ (benIdx k x b') = if v = x ∧ b = b' then a else 0 := by
  simp only [CacheOp.contrib]
  by_cases h : v = x ∧ b = b'
  · rw [if_pos h, if_pos (by rw [h.1, h.2])]
  · rw [if_neg h, if_neg (fun h' => h (benIdx_inj hb hb' h'))]

theorem contrib_pb {v x b' : Nat} (a : Int) (hb' : b' < k) : (CacheOp.add (penIdx k v) a).contrib Φ (benIdx k x b') = 0 := by
  simp only [CacheOp.contrib]
  rw [if_neg (penIdx_ne_benIdx hb')]

theorem contrib_bp {v x b : Nat} (a : Int) (hb : b < k) : (CacheOp.add (benIdx k v b) a).contrib Φ (penIdx k x) = 0 := by
  simp only [CacheOp.contrib]
  rw [if_neg (fun h => penIdx_ne_benIdx hb h.symm)]

theorem contrib_pp {v x : Nat} (a : Int) : (CacheOp.add (penIdx k v) a).contrib Φ (penIdx k x) = if v = x then a else 0 := by
  simp only [CacheOp.contrib]
  by_cases h : v = x
  · rw [if_pos h, if_pos (by rw [h])]
  · rw [if_neg h, if_neg (fun h' => h (penIdx_inj h'))]

end contrib

/-! ### `v` replaces `u` -/

theorem replace_ben (o : Metrics.Obj) (h : NetCnt k part pins cs conn pc) {blk u v : Nat} (hb : blk < k) (hv : part v = some blk) (huv : u ≠ v)
    (hvm : v ∈ pins) (w : Int) {pins0 : List Nat} (hu : u ∈ pins0) (hlen : pins0.length = pins.length)
    (hmem : ∀ x, x ∈ pins ↔ x = v ∨ (x ≠ u ∧ x ∈ pins0)) (hv0 : v ∉ pins0) {x b : Nat} (hbk : b < k) (Φ : Assign) :
    opsSum Φ (benIdx k x b) (replaceOps o k pins.length cs conn pc blk u v w) = netBen o w pins pc x b - netBen o w pins0 pc x b := by
  have hpos : 0 < pc blk := by
    rw [h.cnt blk hb]; exact List.countP_pos_iff.2 ⟨v, hvm, by simp [hv]⟩
  have hlen0 : 0 < pins.length := List.length_pos_of_mem hvm
  have hcsb : b ∈ cs ↔ 0 < pc b := by rw [h.csm]; simp [hbk]
  have hcsk : ∀ c ∈ cs, c < k := fun c hc => ((h.csm c).1 hc).1
  obtain ⟨X, hX⟩ : ∃ X : Int, X = if x = v then 1 else if x = u then -1 else 0 := ⟨_, rfl⟩
  have hrhs : netBen o w pins pc x b - netBen o w pins0 pc x b = X * (w * benMult o pins.length (pc b)) := by
    unfold netBen
    rw [hlen, hX]
    by_cases hxv : x = v
    · subst hxv
      rw [if_pos ((hmem x).2 (Or.inl rfl)), if_neg hv0, if_pos rfl, sub_zero, one_mul]
    · by_cases hxu : x = u
      · subst hxu
        rw [if_neg (by rw [hmem]; simp [hxv]), if_pos hu, if_neg hxv, if_pos rfl, zero_sub, Int.neg_one_mul]
      · rw [if_neg hxv, if_neg hxu, zero_mul]
        have : x ∈ pins ↔ x ∈ pins0 := by rw [hmem]; simp [hxv, hxu]
        by_cases hx : x ∈ pins0
        · rw [if_pos (this.2 hx), if_pos hx, sub_self]
        · rw [if_neg (fun h => hx (this.1 h)), if_neg hx, sub_self]
  have hpair : ∀ c ∈ cs, opsSum Φ (benIdx k x b) [.add (benIdx k u c) (-w), .add (benIdx k v c) w] = if c = b then X * w else 0 := by
    intro c hc
    rw [hX, opsSum_cons, opsSum_cons, opsSum_nil, contrib_bb _ (hcsk c hc) hbk, contrib_bb _ (hcsk c hc) hbk]
    by_cases hcb : c = b
    · subst hcb
      by_cases hxv : x = v
      · subst hxv; simp [huv]
      · by_cases hxu : x = u
        · subst hxu; simp [hxv, Ne.symm huv]
        · simp [hxv, hxu, Ne.symm hxv, Ne.symm hxu]
    · simp [hcb]
  -- a block that contains all pins but one
  have hone : pc b = pins.length - 1 → pins.length > 1 → conn = 2 := by
    intro h1 h2
    rcases h.cases3 hb hpos with ⟨q, _⟩ | ⟨_, q2, q3⟩ | ⟨_, _, q3, q4⟩
    · exact q
    · by_cases hbb : b = blk
      · subst hbb; omega
      · have := q3 b hbk hbb; omega
    · by_cases hbb : b = blk
      · subst hbb; omega
      · have := q4 b hbk hbb; omega
  have hflat : ∀ (f : Nat → List CacheOp), (∀ c ∈ cs, c ≠ b → opsSum Φ (benIdx k x b) (f c) = 0) →
      opsSum Φ (benIdx k x b) (cs.flatMap f) = if b ∈ cs then opsSum Φ (benIdx k x b) (f b) else 0 := by
    intro f hf
    have := opsSum_flatMap Φ (benIdx k x b) b cs h.csn (fun c => if c ∈ cs then f c else []) (by
      intro c hc
      by_cases hcs : c ∈ cs
      · simp only [hcs, if_true]; exact hf c hcs hc
      · simp only [hcs, if_false]; rfl)
    rw [show cs.flatMap f = cs.flatMap (fun c => if c ∈ cs then f c else []) from List.flatMap_congr (fun c hc => by rw [if_pos hc]), this]
    by_cases hbc : b ∈ cs
    · simp only [hbc, if_true]
    · rw [if_neg hbc, if_neg hbc]
  rw [hrhs]
  have hpen2 : ∀ a a', opsSum Φ (benIdx k x b) [.add (penIdx k u) a, .add (penIdx k v) a'] = 0 := by
    intro a a'
    rw [opsSum_cons, opsSum_cons, opsSum_nil, contrib_pb _ hbk, contrib_pb _ hbk]; rfl
  cases o with
  | km1 =>
    show opsSum Φ _ (km1Replace k cs pc blk u v w) = _
    unfold km1Replace
    rw [opsSum_append, opsSum_append, opsSum_ite, hpen2, hpen2, opsSum_nil, ite_self, add_zero, zero_add,
      hflat _ (fun c hc hcb => by rw [hpair c hc, if_neg hcb])]
    simp only [benMult]
    by_cases hbc : b ∈ cs
    · rw [if_pos hbc, hpair b hbc, if_pos rfl, if_pos (by rw [ge_iff_le]; exact hcsb.1 hbc), mul_one]
    · rw [if_neg hbc, if_neg (c := pc b ≥ 1) (fun h => hbc (hcsb.2 h)), mul_zero, mul_zero]
  | cut =>
    show opsSum Φ _ (cutReplace k pins.length cs conn pc blk u v w) = _
    unfold cutReplace
    rw [opsSum_ite, opsSum_append, opsSum_ite, hpen2, opsSum_nil, ite_self, zero_add, opsSum_ite, opsSum_nil,
      hflat _ (fun c hc hcb => by rw [opsSum_ite, hpair c hc, if_neg hcb, opsSum_nil, ite_self])]
    simp only [benMult]
    by_cases hs : pins.length > 1
    · rw [if_pos hs]
      by_cases h1 : pc b = pins.length - 1
      · have hbc : b ∈ cs := hcsb.2 (by omega)
        rw [if_pos (hone h1 hs), if_pos hbc, if_pos h1, hpair b hbc, if_pos rfl, if_pos ⟨h1, hs⟩, mul_one]
      · rw [if_neg (c := pc b = pins.length - 1 ∧ pins.length > 1) (fun h => h1 h.1), mul_zero, opsSum_ite, if_neg h1, opsSum_nil, ite_self, ite_self]
        simp
    · rw [if_neg hs, if_neg (fun h => hs h.2), mul_zero]; simp
  | soed =>
    show opsSum Φ _ (soedReplace k pins.length cs pc blk u v w) = _
    unfold soedReplace
    rw [opsSum_ite, opsSum_append, opsSum_append, opsSum_ite, opsSum_ite, hpen2, opsSum_nil, ite_self, ite_self, zero_add, zero_add,
      hflat _ (fun c hc hcb => by rw [opsSum_append, opsSum_ite, hpair c hc, if_neg hcb, opsSum_nil, ite_self]; rfl)]
    simp only [benMult]
    by_cases hs : pins.length > 1
    · rw [if_pos hs, if_pos hs]
      by_cases hbc : b ∈ cs
      · rw [if_pos hbc, opsSum_append, opsSum_ite, hpair b hbc, if_pos rfl, opsSum_nil, if_pos (c := pc b ≥ 1) (hcsb.1 hbc)]
        by_cases h1 : pc b = pins.length - 1
        · rw [if_pos h1, if_pos h1, mul_add, mul_add, mul_one]
        · rw [if_neg h1, if_neg h1]; simp [mul_add]
      · have h0 : pc b = 0 := by have := mt hcsb.2 hbc; omega
        rw [if_neg hbc, h0, if_neg (by omega), if_neg (by omega)]; simp
    · rw [if_neg hs, if_neg hs, mul_zero]; simp

theorem replace_pen (o : Metrics.Obj) (h : NetCnt k part pins cs conn pc) {blk u v : Nat} (hb : blk < k) (hv : part v = some blk) (hpu : part u = some blk) (huv : u ≠ v)
    (hvm : v ∈ pins) (w : Int) {pins0 : List Nat} (hu : u ∈ pins0) (hlen : pins0.length = pins.length)
    (hmem : ∀ x, x ∈ pins ↔ x = v ∨ (x ≠ u ∧ x ∈ pins0)) (hv0 : v ∉ pins0) {x : Nat} (Φ : Assign) :
    opsSum Φ (penIdx k x) (replaceOps o k pins.length cs conn pc blk u v w) = netPen o w part pins pc x - netPen o w part pins0 pc x := by
  have hpos : 0 < pc blk := by
    rw [h.cnt blk hb]; exact List.countP_pos_iff.2 ⟨v, hvm, by simp [hv]⟩
  have hle : pc blk ≤ pins.length := by rw [h.cnt blk hb]; exact List.countP_le_length
  have hlen0 : 0 < pins.length := List.length_pos_of_mem hvm
  have hcsk : ∀ c ∈ cs, c < k := fun c hc => ((h.csm c).1 hc).1
  obtain ⟨X, hX⟩ : ∃ X : Int, X = if x = v then 1 else if x = u then -1 else 0 := ⟨_, rfl⟩
  have hrhs : netPen o w part pins pc x - netPen o w part pins0 pc x = X * (w * penMult o pins.length (pc blk)) := by
    unfold netPen
    rw [hlen, hX]
    by_cases hxv : x = v
    · subst hxv
      rw [if_pos ((hmem x).2 (Or.inl rfl)), if_neg hv0, if_pos rfl, sub_zero, hv, one_mul]
    · by_cases hxu : x = u
      · subst hxu
        rw [if_neg (by rw [hmem]; simp [hxv]), if_pos hu, if_neg hxv, if_pos rfl, zero_sub, hpu, Int.neg_one_mul]
      · rw [if_neg hxv, if_neg hxu, zero_mul]
        have : x ∈ pins ↔ x ∈ pins0 := by rw [hmem]; simp [hxv, hxu]
        by_cases hx : x ∈ pins0
        · rw [if_pos (this.2 hx), if_pos hx, sub_self]
        · rw [if_neg (fun h => hx (this.1 h)), if_neg hx, sub_self]
  have hpair : ∀ a, opsSum Φ (penIdx k x) [.add (penIdx k u) (-a), .add (penIdx k v) a] = X * a := by
    intro a
    rw [hX, opsSum_cons, opsSum_cons, opsSum_nil, contrib_pp, contrib_pp]
    by_cases hxv : x = v
    · subst hxv; simp [huv]
    · by_cases hxu : x = u
      · subst hxu; simp [hxv, Ne.symm huv]
      · simp [hxv, hxu, Ne.symm hxv, Ne.symm hxu]
  have hpair' : opsSum Φ (penIdx k x) [.add (penIdx k u) w, .add (penIdx k v) (-w)] = -(X * w) := by
    have := hpair (-w); simpa using this
  have hben2 : ∀ c ∈ cs, ∀ a a', opsSum Φ (penIdx k x) [.add (benIdx k u c) a, .add (benIdx k v c) a'] = 0 := by
    intro c hc a a'
    rw [opsSum_cons, opsSum_cons, opsSum_nil, contrib_bp _ (hcsk c hc), contrib_bp _ (hcsk c hc)]; rfl
  rw [hrhs]
  cases o with
  | km1 =>
    show opsSum Φ _ (km1Replace k cs pc blk u v w) = _
    unfold km1Replace
    rw [opsSum_append, opsSum_append, opsSum_ite, hpair, hpair', opsSum_nil, opsSum_flatMap_zero _ _ _ _ (fun c hc => hben2 c hc _ _)]
    simp only [penMult]
    by_cases h1 : pc blk = 1
    · rw [if_pos h1, if_neg (by omega)]; simp [mul_add]
    · rw [if_neg h1, if_pos (by omega)]; simp [mul_add]
  | cut =>
    show opsSum Φ _ (cutReplace k pins.length cs conn pc blk u v w) = _
    unfold cutReplace
    rw [opsSum_ite, opsSum_append, opsSum_ite, hpair, opsSum_nil, opsSum_ite, opsSum_nil, opsSum_flatMap_zero _ _ _ _ (fun c hc => by rw [opsSum_ite, hben2 c hc, opsSum_nil, ite_self]), ite_self, add_zero]
    simp only [penMult]
    by_cases hs : pins.length > 1
    · rw [if_pos hs]
      by_cases h1 : pc blk = pins.length
      · rw [if_pos h1, if_pos ⟨h1, hs⟩, mul_one]
      · rw [if_neg h1, if_neg (fun h => h1 h.1), mul_zero]; simp
    · rw [if_neg hs, if_neg (fun h => hs h.2), mul_zero]; simp
  | soed =>
    show opsSum Φ _ (soedReplace k pins.length cs pc blk u v w) = _
    unfold soedReplace
    rw [opsSum_ite, opsSum_append, opsSum_append, opsSum_ite, opsSum_ite, hpair, opsSum_nil,
      opsSum_flatMap_zero _ _ _ _ (fun c hc => by rw [opsSum_append, opsSum_ite, hben2 c hc, opsSum_nil, ite_self]; rfl), add_zero]
    simp only [penMult, b2i, decide_eq_true_eq]
    by_cases hs : pins.length > 1
    · rw [if_pos hs, if_pos hs]
      by_cases h1 : pc blk > 1
      · rw [if_pos h1, if_pos h1]
        by_cases h2 : pc blk = pins.length
        · rw [if_pos h2, if_pos h2]; show X * w + X * w = X * (w * (1 + 1)); rw [mul_add, mul_one, mul_add]
        · rw [if_neg h2, if_neg h2]; simp [mul_add]
      · rw [if_neg h1, if_neg h1, if_neg (c := pc blk = pins.length) (by omega), if_neg (by omega)]; simp
    · rw [if_neg hs, if_neg hs]; simp

end Dyn
end Verif
