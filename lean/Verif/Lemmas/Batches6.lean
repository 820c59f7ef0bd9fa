import Verif.Lemmas.Batches5
/-! The batches of one version form a valid schedule. -/
namespace Verif
namespace Uncontract
open Schedule
open scoped BigOperators

variable {t : CTree} {ch : Nat → List Nat} {roots : List Nat} {k mx T : Nat}

theorem Inv.mem_hnodes (hV : VersionOK t roots k) {s : St} {H : Hist} {m : Nat} (I : Inv t ch roots k mx T s H m)
    (hd : Done T s) {v : Nat} : v ∈ hnodes H ↔ Edge t k v := by
  refine ⟨I.hnodes_edge hV, ?_⟩
  have hthr : ∀ i < T, infl (s.thr i).pc = [] ∧ fr t k (s.thr i) = [] := by
    intro i hi
    have h1 := hd i hi
    have h2 := (I.thr i hi).pc
    unfold PcInv at h2
    rw [h1.1] at h2
    refine ⟨by rw [h1.1]; rfl, ?_⟩
    unfold fr
    rw [h1.2, h2 h1.2]; rfl
  have hlin : ∀ v, (hnodes H).count v = if Edge t k v then roots.count (t.par v) + (hnodes H).count (t.par v) else 0 := by
    intro v
    have h := I.lin v
    have h1 : ∑ i ∈ Finset.range T, ((infl (s.thr i).pc).count v + (fr t k (s.thr i)).count v) = 0 := by
      apply Finset.sum_eq_zero
      intro i hi
      have := hthr i (Finset.mem_range.1 hi)
      rw [this.1, this.2]; rfl
    have h2 : ∑ i ∈ Finset.range T, (infl (s.thr i).pc).count (t.par v) = 0 := by
      apply Finset.sum_eq_zero
      intro i hi
      have := hthr i (Finset.mem_range.1 hi)
      rw [this.1]; rfl
    rw [h1, h2] at h
    exact h
  have key : ∀ i v, t.par (t.par^[i] v) = t.par^[i] v → Edge t k v → 0 < (hnodes H).count v := by
    intro i
    induction i with
    | zero => intro v h he; exact absurd h he.2.1
    | succ i ih =>
      intro v h he
      rw [hlin v, if_pos he]
      by_cases hp : t.ver (t.par v) = k
      · have h3 : Edge t k (t.par v) := ⟨hV.par_lt v he.1, fun h' => hV.rootVer _ (hV.par_lt v he.1) h' hp, hp⟩
        have := ih (t.par v) h h3
        omega
      · have h2 := hV.rootMem v he hp
        omega
  intro he
  obtain ⟨i, hi⟩ := hV.acyclic v he.1
  exact List.count_pos_iff.1 (key i v hi he)

theorem last_claim {b : Nat} : ∀ (H : Hist), content H b ≠ [] →
    ∃ H1 c H2, H = H1 ++ c :: H2 ∧ c.1 = b ∧ content H2 b = [] := by
  intro H
  induction H with
  | nil => intro h; exact absurd rfl h
  | cons c H ih =>
    intro h
    by_cases hH : content H b = []
    · rw [content_cons, hH, List.append_nil] at h
      by_cases hc : c.1 = b
      · exact ⟨[], c, H, rfl, hc, hH⟩
      · rw [if_neg hc] at h; exact absurd rfl h
    · obtain ⟨H1, c', H2, h1, h2, h3⟩ := ih hH
      exact ⟨c :: H1, c', H2, by rw [h1]; rfl, h2, h3⟩

theorem before_asymm (t : CTree) {a b : Nat} (h : t.before a b = true) (h' : t.before b a = true) : False := by
  rw [before_iff] at h h'
  omega

theorem getElem?_batches {α : Type} (m : Nat) (f : Nat → α) {i : Nat} {x : α}
    (h : (((List.range m).map f).reverse)[i]? = some x) : i < m ∧ x = f (m - 1 - i) := by
  have hi : i < m := by
    have := (List.getElem?_eq_some_iff.1 h).1
    simpa using this
  refine ⟨hi, ?_⟩
  rw [List.getElem?_reverse (by simpa using hi), List.length_map, List.length_range, List.getElem?_map,
    List.getElem?_range (by omega)] at h
  simpa using h.symm

theorem Inv.valid (hc : ChildsOK t ch) (hV : VersionOK t roots k) {s : St} {H : Hist} {m : Nat}
    (I : Inv t ch roots k mx T s H m) (hd : Done T s) :
    t.forest.Valid k mx (((List.range m).map (batchOf t H)).reverse) := by
  have hnd := I.hnodes_nodup hV
  have hperm := contents_perm H m I.hist_lt
  have hflat : (((List.range m).map (batchOf t H)).reverse).flatten.Perm ((hnodes H).map (fun v => (t.par v, v))) := by
    have h1 : (((List.range m).map (batchOf t H)).reverse).flatten.Perm (((List.range m).map (batchOf t H))).flatten :=
      (List.reverse_perm _).flatten
    refine h1.trans ?_
    rw [← List.flatMap_def]
    have : (List.range m).flatMap (batchOf t H) = ((List.range m).flatMap (content H)).map (fun v => (t.par v, v)) := by
      rw [List.map_flatMap]; rfl
    rw [this]
    exact hperm.map _
  have hclaim : ∀ {b u v : Nat}, (u, v) ∈ batchOf t H b → t.par v = u ∧ ∃ c ∈ H, c.1 = b ∧ v ∈ c.2 := by
    intro b u v h
    unfold batchOf at h
    rw [List.mem_map] at h
    obtain ⟨x, hx, hxe⟩ := h
    injection hxe with h1 h2
    subst h2
    exact ⟨h1, mem_content.1 hx⟩
  have hedge : ∀ {c : Nat × List Nat} {v : Nat}, c ∈ H → v ∈ c.2 → Edge t k v := by
    intro c v h1 h2
    exact I.hnodes_edge hV (List.mem_flatMap.2 ⟨c, h1, h2⟩)
  have hgrp : ∀ {c : Nat × List Nat} {v : Nat}, c ∈ H → v ∈ c.2 → Grp t ch k H c.1 (t.par v) c.2 := by
    intro c v h1 h2
    obtain ⟨u, hu⟩ := I.hist c h1
    have : t.par v = u := by
      obtain ⟨pre, rest, h, _⟩ := hu
      exact ((hc.mem u v).1 (by rw [h]; simp [h2])).2.1
    rw [this]; exact hu
  have hch : ∀ {v : Nat}, Edge t k v → v ∈ ch (t.par v) := by
    intro v hv
    exact (hc.mem _ _).2 ⟨hv.1, rfl, fun h => hv.2.1 h.symm⟩
  refine ⟨?_, ?_, ?_, ?_, ?_, ?_, ?_⟩
  · rw [hflat.nodup_iff]
    apply hnd.map
    intro a b h
    injection h
  · intro u v
    rw [hflat.mem_iff, List.mem_map]
    show _ ↔ (v < t.n ∧ t.par v ≠ v) ∧ t.par v = u ∧ t.ver v = k
    constructor
    · rintro ⟨x, hx, hxe⟩
      injection hxe with h1 h2
      subst h2
      have he := (I.mem_hnodes hV hd).1 hx
      exact ⟨⟨he.1, he.2.1⟩, h1, he.2.2⟩
    · rintro ⟨h1, h2, h3⟩
      exact ⟨v, (I.mem_hnodes hV hd).2 ⟨h1.1, h1.2, h3⟩, by rw [h2]⟩
  · intro b hb
    rw [List.mem_reverse, List.mem_map] at hb
    obtain ⟨b, hb, rfl⟩ := hb
    have := (I.mm b).2 (List.mem_range.1 hb)
    unfold batchOf
    simpa using this
  · intro i j bi bj u v w hi hj huv hvw
    obtain ⟨hi, rfl⟩ := getElem?_batches _ _ hi
    obtain ⟨hj, rfl⟩ := getElem?_batches _ _ hj
    obtain ⟨h1, c1, hc1, hb1, hv1⟩ := hclaim huv
    obtain ⟨h2, c2, hc2, hb2, hw2⟩ := hclaim hvw
    have hg := hgrp hc2 hw2
    rw [h2] at hg
    obtain ⟨_, _, _, _, _, _, _, _, hlt⟩ := hg
    obtain ⟨c, hcH, hvc, hlt⟩ := hlt (hedge hc1 hv1).2.2
    have := hist_unique hnd hcH hc1 hvc hv1
    subst this
    omega
  · intro i j bi bj u v w hi hj huv huw ho
    obtain ⟨hi, rfl⟩ := getElem?_batches _ _ hi
    obtain ⟨hj, rfl⟩ := getElem?_batches _ _ hj
    obtain ⟨h1, c1, hc1, hb1, hv1⟩ := hclaim huv
    obtain ⟨h2, c2, hc2, hb2, hw2⟩ := hclaim huw
    have he1 := hedge hc1 hv1
    have he2 := hedge hc2 hw2
    suffices h : c1 = c2 by subst h; omega
    have hg1 := hgrp hc1 hv1
    have hg2 := hgrp hc2 hw2
    rw [h1] at hg1
    rw [h2] at hg2
    obtain ⟨pre1, rest1, e1, _, _, _, ov1, _⟩ := hg1
    obtain ⟨pre2, rest2, e2, _, _, _, ov2, _⟩ := hg2
    have hvm : v ∈ ch u := by rw [← h1]; exact hch he1
    have hwm : w ∈ ch u := by rw [← h2]; exact hch he2
    have hwm1 := hwm
    rw [e1, List.append_assoc, List.mem_append, List.mem_append] at hwm1
    have hvm2 := hvm
    rw [e2, List.append_assoc, List.mem_append, List.mem_append] at hvm2
    rcases hwm1 with hw1 | hw1 | hw1
    · rcases hvm2 with hv2 | hv2 | hv2
      · exfalso
        have s1 := hc.sorted u
        rw [e1, List.append_assoc] at s1
        have b1 := (List.pairwise_append.1 s1).2.2 w hw1 v (List.mem_append_left _ hv1)
        have s2 := hc.sorted u
        rw [e2, List.append_assoc] at s2
        have b2 := (List.pairwise_append.1 s2).2.2 v hv2 w (List.mem_append_left _ hw2)
        exact before_asymm t b1 b2
      · exact hist_unique hnd hc1 hc2 hv1 hv2
      · exact absurd ⟨ho.2, ho.1⟩ (ov2 w hw2 v hv2 he1.2.2)
    · exact hist_unique hnd hc1 hc2 hw1 hw2
    · exact absurd ho (ov1 v hv1 w hw1 he2.2.2)
  · intro i j bi bj u v w hi hj huv huw hst
    obtain ⟨hi, rfl⟩ := getElem?_batches _ _ hi
    obtain ⟨hj, rfl⟩ := getElem?_batches _ _ hj
    obtain ⟨h1, c1, hc1, hb1, hv1⟩ := hclaim huv
    obtain ⟨h2, c2, hc2, hb2, hw2⟩ := hclaim huw
    have he1 := hedge hc1 hv1
    have he2 := hedge hc2 hw2
    have hg2 := hgrp hc2 hw2
    rw [h2] at hg2
    obtain ⟨pre2, rest2, e2, _, _, hle, _, _⟩ := hg2
    have hvm : v ∈ ch u := by rw [← h1]; exact hch he1
    rw [e2, List.append_assoc, List.mem_append, List.mem_append] at hvm
    have hst' : t.stop w < t.stop v := hst
    rcases hvm with hv2 | hv2 | hv2
    · obtain ⟨c, hcH, hvc, hlt⟩ := hle v hv2 he1.2.2
      have := hist_unique hnd hcH hc1 hvc hv1
      subst this
      omega
    · have := hist_unique hnd hc1 hc2 hv1 hv2
      subst this
      omega
    · exfalso
      have s2 := hc.sorted u
      rw [e2, List.append_assoc] at s2
      have b2 := (List.pairwise_append.1 ((List.pairwise_append.1 s2).2.1)).2.2 w hw2 v hv2
      rw [before_iff] at b2
      have := he1.2.2
      have := he2.2.2
      omega
  · intro b hb
    rw [List.mem_reverse, List.mem_map] at hb
    obtain ⟨b, hb, rfl⟩ := hb
    obtain ⟨H1, c, H2, hH, hcb, hemp⟩ := last_claim H ((I.mm b).2 (List.mem_range.1 hb))
    have hcap := I.cap H1 c H2 hH
    rw [hcb] at hcap
    have hcm : c ∈ H := by rw [hH]; simp
    obtain ⟨u, pre, rest, e1, _, _, _, _, hlink, _⟩ := I.hist c hcm
    refine ⟨(content H1 b).map (fun v => (t.par v, v)), c.2.map (fun v => (t.par v, v)), ?_, by simpa using hcap, ⟨u, ?_⟩, ?_⟩
    · unfold batchOf
      rw [hH, content_append, content_cons, hemp, if_pos hcb, List.append_nil, List.map_append]
    · intro x hx
      rw [List.mem_map] at hx
      obtain ⟨v, hv, rfl⟩ := hx
      exact ((hc.mem u v).1 (by rw [e1]; simp [hv])).2.1
    · intro a b' hab ha hb'
      obtain ⟨a1, b1, h1, h2, h3⟩ := List.map_eq_append_iff.1 hab
      subst h2 h3
      obtain ⟨x, hx, y, hy, ho⟩ := hlink a1 b1 h1 (by intro h; subst h; simp at ha) (by intro h; subst h; simp at hb')
      exact ⟨(t.par x, x), List.mem_map.2 ⟨x, hx, rfl⟩, (t.par y, y), List.mem_map.2 ⟨y, hy, rfl⟩, ho⟩

/-- `createBatchUncontractionHierarchyForVersion` with fresh counters -/
theorem forVersion_valid (hc : ChildsOK t ch) (hV : VersionOK t roots k) (hpos : 0 < t.n) (hmx : 0 < mx)
    (hst : ∀ v, v < t.n → t.par v ≠ v → t.start v ≠ kInvalid ∧ t.start v ≤ t.stop v)
    {cnt size : Nat → Nat} (h0 : ∀ b, cnt b = 0) (h0' : ∀ b, size b = 0) {sh : Sh} {res : Option (List (List Memento))}
    (h : ForVersion t ch roots k mx T 0 cnt size sh res) :
    ∃ B, res = some B ∧ t.forest.Valid k mx B ∧ (∀ b, B.length ≤ b → sh.cnt b = 0 ∧ sh.size b = 0) := by
  obtain rfl : cnt = fun _ => 0 := funext h0
  obtain rfl : size = fun _ => 0 := funext h0'
  cases h with
  | mk dist s ws hd hs hdone hw =>
    obtain ⟨H, m, I⟩ := Inv.steps hc hmx hst hs ⟨[], 0, Inv.init hc hd hV.rootNot⟩
    refine ⟨_, I.result hV hpos hdone hw, I.valid hc hV hdone, ?_⟩
    intro b hb
    have hb' : m ≤ b := by simpa using hb
    have h1 : content H b = [] := by
      by_contra h
      have := (I.mm b).1 h
      omega
    have h2 := I.tile b
    have h3 := I.sizes b
    rw [h1, List.length_nil] at h2 h3
    constructor
    · rcases h2.2 with h | h
      · exact h
      · omega
    · omega

end Uncontract
end Verif
