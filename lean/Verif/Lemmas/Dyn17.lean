import Verif.Lemmas.Dyn16
import Mathlib.Data.Finset.Max
/-!
# Preservation of the invariant: all steps
-/
namespace Verif
namespace Dyn
open SMap (wr)

variable {s0 : DH} {mx : Int} {s s' : St} {G : Gh}

theorem Inv.tstep (hc : Clean s0) (hI : Inv s0 mx s G) {i : Nat} (h : TStep mx i s s') : ∃ G', Inv s0 mx s' G' := by
  cases h with
  | register w v hi hw hv hwv ew ev hp hr => exact ⟨G, hI.register hi hw hv hwv ew ev hp⟩
  | lookEnd v hi hp =>
    refine ⟨G, hI.move (i := i) (pc := .idle) trivial (by rw [hi]; rfl) ?_⟩
    intro x _ hpx _ h
    rw [hi] at h
    rcases h with h | h
    · injection h with h; subst h; exact absurd hp hpx
    · cases h
  | lookGo v hi hp =>
    have hl := hI.p.root v hp
    refine ⟨G, hI.move (i := i) (pc := .tryC (s.h.par v) v) ⟨hl.2, hl.1, hp, Or.inl rfl⟩ (by rw [hi]; rfl) ?_⟩
    intro x _ hpx _ h
    rw [hi] at h
    rcases h with h | h
    · injection h with h; subst h; exact Or.inr rfl
    · cases h
  | start u v hi ev hp hw hf => exact ⟨G, hI.start hi ev hp hw hf⟩
  | tooHeavy u v hi ev hp hw => exact ⟨G, hI.failed hi ev hp (fun _ _ h => h) (Or.inl hw)⟩
  | refused u v hi ev hp h0 hw =>
    exact ⟨G, hI.failed hi ev hp (fun a b h => by simp [h]) (Or.inr (by simp))⟩
  | pending u v hi hcond =>
    refine ⟨G, hI.move (i := i) (pc := .idle) trivial (by rw [hi]; rfl) ?_⟩
    intro x hx hpx h0 h
    rw [hi] at h
    rcases h with h | h
    · cases h
    · injection h with h1 h2
      subst h2
      rcases hcond with h | h | h
      · rw [hx] at h; cases h
      · exact absurd h1.symm h
      · omega
  | load u v hi => exact ⟨_, hI.load hc hi⟩
  | edge u v st j sh failed l e l' k b hi hl he hcon =>
    have hok := hI.thr i
    rw [hi] at hok
    obtain ⟨hr, hm, ht, hst, htodo⟩ := hok
    obtain ⟨n1, n2, n3⟩ := Inv.nets_run hc hI hr hm
    rw [n3] at hl
    injection hl with hl
    subst hl
    have hdrop : (G.nets s.h.ina v).drop j = e :: (G.nets s.h.ina v).drop (j + 1) := by
      obtain ⟨hj, he⟩ := List.getElem?_eq_some_iff.1 he
      rw [List.drop_eq_getElem_cons hj, he]
    obtain ⟨l2, k2, b2, hcon2, hinv⟩ := Inv.edge hc hI (i := i) (u := u) (e := e) (todo' := failed ++ (G.nets s.h.ina v).drop (j + 1)) (by rw [hi]; rfl) hm ht htodo
      (by rw [hdrop]; exact List.perm_middle)
    rw [hcon] at hcon2
    injection hcon2 with hcon2
    injection hcon2 with h1 h2
    injection h2 with h2 h3
    subst h1 h2 h3
    refine ⟨_, hinv (.iter u v st (j + 1) (flagIf sh e b) failed) rfl ?_⟩
    intro hr' ht'
    exact ⟨hr', hm, ht, hst, ht'⟩
  | defer u v st j sh failed l e hi hl he =>
    have hok := hI.thr i
    rw [hi] at hok
    obtain ⟨hr, hm, ht, hst, htodo⟩ := hok
    obtain ⟨n1, n2, n3⟩ := Inv.nets_run hc hI hr hm
    rw [n3] at hl
    injection hl with hl
    subst hl
    have hdrop : (G.nets s.h.ina v).drop j = e :: (G.nets s.h.ina v).drop (j + 1) := by
      obtain ⟨hj, he⟩ := List.getElem?_eq_some_iff.1 he
      rw [List.drop_eq_getElem_cons hj, he]
    refine ⟨G, hI.move (i := i) ⟨hr, hm, ht, hst, ?_⟩ (by rw [hi]; rfl) ?_⟩
    · rw [hdrop] at htodo
      rw [List.append_assoc]; exact htodo
    · intro x _ _ _ h; rw [hi] at h; rcases h with h | h <;> cases h
  | iterEnd u v st j sh failed l hi hl he =>
    have hok := hI.thr i
    rw [hi] at hok
    obtain ⟨hr, hm, ht, hst, htodo⟩ := hok
    obtain ⟨n1, n2, n3⟩ := Inv.nets_run hc hI hr hm
    rw [n3] at hl
    injection hl with hl
    subst hl
    refine ⟨G, hI.move (i := i) ⟨hr, hm, ht, hst, ?_⟩ (by rw [hi]; rfl) ?_⟩
    · rw [List.drop_eq_nil_of_le he, List.append_nil] at htodo; exact htodo
    · intro x _ _ _ h; rw [hi] at h; rcases h with h | h <;> cases h
  | lateEdge u v st sh e failed l' k b hi hcon =>
    have hok := hI.thr i
    rw [hi] at hok
    obtain ⟨hr, hm, ht, hst, htodo⟩ := hok
    obtain ⟨l2, k2, b2, hcon2, hinv⟩ := Inv.edge hc hI (i := i) (u := u) (e := e) (todo' := failed) (by rw [hi]; rfl) hm ht htodo (List.Perm.refl _)
    rw [hcon] at hcon2
    injection hcon2 with hcon2
    injection hcon2 with h1 h2
    injection h2 with h2 h3
    subst h1 h2 h3
    refine ⟨_, hinv (.late u v st (flagIf sh e b) failed) rfl ?_⟩
    intro hr' ht'
    exact ⟨hr', hm, ht, hst, ht'⟩
  | merge u v st sh a hi hcon =>
    obtain ⟨a', ha', hinv⟩ := Inv.merge hc hI hi
    rw [hcon] at ha'
    injection ha' with ha'
    subst ha'
    exact ⟨_, hinv⟩
  | tick u v st hi => exact ⟨_, hI.tick hi⟩
  | unreg u v st sp hi => exact ⟨_, hI.unreg hi⟩

/-- when all threads are finished, all registered contractions are performed -/
theorem Inv.all_fin (hI : Inv s0 mx s G) (hi : ∀ i, s.thr i = .idle) (ha : Acyclic s.h.n s.h.par) {v : Nat} (hv : s.h.par v ≠ v) : G.fin v = true := by
  classical
  by_contra hf
  let S : Finset Nat := (Finset.range s0.n).filter (fun v => s.h.par v ≠ v ∧ G.fin v = false)
  have hvS : v ∈ S := by
    rw [Finset.mem_filter, Finset.mem_range]
    exact ⟨(hI.p.root v hv).1.1, hv, by simpa using hf⟩
  have ha' : ∀ x, ∃ i, x < s0.n → s.h.par (s.h.par^[i] x) = s.h.par^[i] x := by
    intro x
    by_cases hx : x < s0.n
    · obtain ⟨i, hi⟩ := ha x (by rw [hI.t.nEq]; exact hx)
      exact ⟨i, fun _ => hi⟩
    · exact ⟨0, fun h => absurd h hx⟩
  let d : Nat → Nat := fun x => Nat.find (ha' x)
  obtain ⟨w, hw, hmax⟩ := S.exists_max_image d ⟨v, hvS⟩
  rw [Finset.mem_filter, Finset.mem_range] at hw
  obtain ⟨hwn, hwp, hwf⟩ := hw
  have hl := (hI.p.root w hwp).1
  have hen : s.h.en w = true := by
    by_contra he
    rcases (hI.p.dis w hl (by simpa using he)).2 with h | ⟨j, u, h⟩
    · rw [hwf] at h; cases h
    · rw [hi j] at h; cases h
  have hpend : 0 < s.h.pend w := by
    rcases hI.p.owed w hen hwp with h | ⟨j, h⟩
    · exact h
    · rw [hi j] at h; rcases h with h | h <;> cases h
  rw [hI.p.pend w, Finset.card_pos] at hpend
  obtain ⟨c, hc⟩ := hpend
  rw [openKids, Finset.mem_filter, Finset.mem_range] at hc
  obtain ⟨hcn, hcp, hcw, hcf⟩ := hc
  have hcS : c ∈ S := by
    rw [Finset.mem_filter, Finset.mem_range]
    exact ⟨hcn, by rw [hcp]; exact Ne.symm hcw, hcf⟩
  have hle := hmax c hcS
  have hdc : s.h.par (s.h.par^[d c] c) = s.h.par^[d c] c := Nat.find_spec (ha' c) hcn
  have hpos : d c ≠ 0 := by
    intro h0
    rw [h0, Function.iterate_zero, id, hcp] at hdc
    exact hcw hdc.symm
  obtain ⟨k, hk⟩ := Nat.exists_eq_succ_of_ne_zero hpos
  rw [hk, Function.iterate_succ_apply, hcp] at hdc
  have : d w ≤ k := Nat.find_min' (ha' w) (fun _ => hdc)
  omega

theorem addedWeight_of_rep {h : DH} {R : RemovedNets} (hR : RemovalOK h R) {ew : Nat → Int} {e : Nat} (he : e ∈ R.map Prod.fst) : addedWeight ew R e = 0 := by
  unfold addedWeight
  rw [List.filter_eq_nil_iff.2]
  · rfl
  · rintro ⟨a, b⟩ hp hb
    have hb' : b = some e := by simpa using hb
    subst hb'
    exact (hR.parallel a e hp).2.2.1 he

/-- removal of nets -/
theorem Inv.remove (hc : Clean s0) (hI : Inv s0 mx s G) {R : RemovedNets} {ord : List Nat} (hi : ∀ i, s.thr i = .idle) (ha : Acyclic s.h.n s.h.par)
    (hR : RemovalOK s.h R) (ho : ord.Perm ((List.range s.h.n).filter s.h.en)) :
    ∃ h', s.h.removeNetsStep R ord = some h' ∧
      Inv s0 mx { s with h := h' } { G with rem := fun k e => if k = s.h.V then (R.map Prod.fst).contains e else G.rem k e, ops := fun x => Op.ver s.h.V :: G.ops x } := by
  have P := hI.p
  have E := hI.e
  have N := hI.n
  have hfin : ∀ v, s.h.par v ≠ v → G.fin v = true := fun v hv => hI.all_fin hi ha hv
  have hlive : ∀ x, x ∈ ord ↔ s0.live x ∧ G.mg x = false := by
    intro x
    rw [ho.mem_iff, List.mem_filter, List.mem_range, hI.t.nEq]
    constructor
    · rintro ⟨h1, h2⟩
      exact ⟨⟨h1, P.enLe x h2⟩, hI.mg_false h2⟩
    · rintro ⟨h1, h2⟩
      refine ⟨h1.1, ?_⟩
      by_contra he
      have := (P.finD x (hfin x (P.dis x h1 (by simpa using he)).1)).2.2.1
      rw [h2] at this; cases this
  have hnd : ord.Nodup := ho.nodup_iff.2 (List.nodup_range.filter _)
  have hk : INAOK s0.n s0.live G.mg (fun _ => false) s.h.par G.kids G.sg s.h.ver
      (Gh.keep { G with rem := fun k e => if k = s.h.V then (R.map Prod.fst).contains e else G.rem k e, ops := fun x => Op.ver s.h.V :: G.ops x })
      s0.ina.vr s0.ina.active G.ops s.h.V s.h.ina := by
    refine hI.t.ina.keep_congr hI.t.tree ?_
    intro x hx o ho e
    cases o with
    | contr z => rfl
    | ver k =>
      have := (hI.t.ina.vers x hx k).1 ho
      show (!(if k = s.h.V then _ else G.rem k e)) = !G.rem k e
      rw [if_neg (by omega)]
  obtain ⟨a, ha1, ha2, ha3⟩ := hk.removeAll hI.t.tree hI.t.fresh (flag := fun e => (R.map Prod.fst).contains e) hnd hlive
    (fun x _ e _ => by show _ = !(!(if s.h.V = s.h.V then _ else _)); rw [if_pos rfl, Bool.not_not])
  have hstep : s.h.removeNetsStep R ord = some { s.h with
      een := fun e => s.h.een e && !(R.map Prod.fst).contains e
      ew := fun e => s.h.ew e + addedWeight s.h.ew R e
      pins := fun e => if decide (e < s.h.m) && s.h.een e && decide (1 < s.h.size e) then (s.h.edgePins e).mergeSort (fun a b => decide (a ≤ b)) ++ (s.h.pins e).drop (s.h.size e) else s.h.pins e
      ina := a
      V := s.h.V + 1
      removed := R :: s.h.removed } := by
    unfold DH.removeNetsStep
    rw [ha1]
  refine ⟨_, hstep, ?_⟩
  have hverle : ∀ v, s.h.par v ≠ v → s.h.ver v ≤ s.h.V := fun v hv => (hI.t.ina.stk v (P.finD v (hfin v hv)).2.2.1).1
  have hremeq : ∀ v e, s.h.par v ≠ v → ((∀ k < s.h.ver v, (if k = s.h.V then (R.map Prod.fst).contains e else G.rem k e) = false) ↔ ∀ k < s.h.ver v, G.rem k e = false) := by
    intro v e hv
    have := hverle v hv
    constructor
    · intro h k hk; have := h k hk; rwa [if_neg (by omega)] at this
    · intro h k hk; rw [if_neg (by omega)]; exact h k hk
  refine ⟨⟨hI.t.nEq, hI.t.mEq, hI.t.tree, ha2, ha3⟩, ⟨E.log, ?_, ?_, ?_, ?_, E.oneIn⟩, ?_, ⟨?_, ?_, ?_, ?_, ?_, ?_⟩, ?_⟩
  · intro e he
    have hp := E.pins e he
    show PinsOK _ s.h.par _ _ (if _ then _ else s.h.pins e) (s.h.size e)
    split
    · have hlen : ((s.h.edgePins e).mergeSort (fun a b => decide (a ≤ b))).length = s.h.size e := by
        rw [List.length_mergeSort]
        unfold DH.edgePins
        rw [List.length_take]; have := hp.le; omega
      refine hp.perm ?_ ?_
      · rw [List.take_left' hlen]; exact List.mergeSort_perm _ _
      · rw [List.drop_left' hlen]
    · exact hp
  · intro e he
    refine ⟨?_, (E.other e he).2⟩
    show (if _ then _ else s.h.pins e) = _
    rw [if_neg]
    · exact (E.other e he).1
    · intro h
      rw [Bool.and_eq_true, Bool.and_eq_true, decide_eq_true_eq] at h
      exact he ⟨by rw [← hI.t.mEq]; exact h.1.1, ((N.enabled e).1 h.1.2).1⟩
  · intro v e hv
    obtain ⟨a1, a2, a3, a4⟩ := E.logU v e hv
    exact ⟨a1, a2, a3, (hremeq v e (P.dis v a2 a3).1).2 a4⟩
  · intro v e hv hin hk
    exact E.comp v e hv hin ((hremeq v e (hI.t.tree.par_ne hv)).1 hk)
  · refine ⟨P.root, P.enLe, P.dis, P.uniq, P.finD, P.mgD, ?_, P.pend, P.owed, P.verR, P.verM, P.wt0, P.wtS, P.gst, P.tk⟩
    intro v hv hf
    have := hfin v hv
    rw [show G.fin v = false from hf] at this; cases this
  · refine ⟨fun e => by show (if s.h.V = s.h.V then _ else _) = _; rw [if_pos rfl], ?_⟩
    have hgen : ∀ (k : Nat) (l : List RemovedNets), k ≤ s.h.V → RemOK G.rem k l → RemOK (fun k e => if k = s.h.V then (R.map Prod.fst).contains e else G.rem k e) k l := by
      intro k
      induction k with
      | zero => intro l _ h; cases l with
        | nil => trivial
        | cons _ _ => exact h.elim
      | succ k ih =>
        intro l hk h
        cases l with
        | nil => exact h.elim
        | cons x l =>
          refine ⟨fun e => ?_, ih l (by omega) h.2⟩
          show (if k = s.h.V then _ else _) = _
          rw [if_neg (by omega)]; exact h.1 e
    exact hgen _ _ (Nat.le_refl _) N.rem
  · intro k e h
    show k < s.h.V + 1
    change (if k = s.h.V then _ else G.rem k e) = true at h
    split at h
    · omega
    · have := N.remV k e h; omega
  · have hen : ∀ e, (R.map Prod.fst).contains e = true → ∀ k, G.rem k e = false := by
      intro e he
      rw [List.contains_iff_mem, List.mem_map] at he
      obtain ⟨p, hp, rfl⟩ := he
      exact ((N.enabled p.1).1 (hR.enabled p hp).2).2
    intro k j e h1 h2
    change (if k = s.h.V then _ else G.rem k e) = true at h1
    change (if j = s.h.V then _ else G.rem j e) = true at h2
    split at h1
    · split at h2
      · omega
      · rw [hen e h1 j] at h2; cases h2
    · split at h2
      · rw [hen e h2 k] at h1; cases h1
      · exact N.once k j e h1 h2
  · show undoW (R :: s.h.removed) (fun e => s.h.ew e + addedWeight s.h.ew R e) = s0.ew
    unfold undoW
    rw [← N.ew]
    congr 1
    funext e
    have : addedWeight (fun e => s.h.ew e + addedWeight s.h.ew R e) R e = addedWeight s.h.ew R e := by
      show ((R.filter (fun p => p.2 == some e)).map (fun p => s.h.ew p.1 + addedWeight s.h.ew R p.1)).sum = ((R.filter (fun p => p.2 == some e)).map (fun p => s.h.ew p.1)).sum
      congr 1
      refine List.map_congr_left ?_
      intro p hp
      rw [addedWeight_of_rep hR (List.mem_map_of_mem (List.mem_of_mem_filter hp))]; omega
    rw [this]
    show s.h.ew e + addedWeight s.h.ew R e - addedWeight s.h.ew R e = s.h.ew e
    omega
  · show undoE (R :: s.h.removed) (fun e => s.h.een e && !(R.map Prod.fst).contains e) = s0.een
    unfold undoE
    rw [← N.een]
    congr 1
    funext e
    cases hb : (R.map Prod.fst).contains e with
    | false =>
      show ((s.h.een e && !(R.map Prod.fst).contains e) || _) = _
      rw [hb]; simp
    | true =>
      show ((s.h.een e && !(R.map Prod.fst).contains e) || _) = _
      rw [hb]
      rw [List.contains_iff_mem, List.mem_map] at hb
      obtain ⟨p, hp, rfl⟩ := hb
      rw [(hR.enabled p hp).2]; simp
  · intro e
    show (s.h.een e && !(R.map Prod.fst).contains e) = true ↔ s0.een e = true ∧ ∀ k, (if k = s.h.V then _ else G.rem k e) = false
    rw [Bool.and_eq_true, N.enabled]
    constructor
    · rintro ⟨⟨h1, h2⟩, h3⟩
      refine ⟨h1, fun k => ?_⟩
      split
      · simpa using h3
      · exact h2 k
    · rintro ⟨h1, h2⟩
      refine ⟨⟨h1, fun k => ?_⟩, ?_⟩
      · by_cases hk : k = s.h.V
        · rw [bool_false_iff]; intro h
          have := N.remV k e h
          omega
        · have := h2 k; rwa [if_neg hk] at this
      · have := h2 s.h.V; rw [if_pos rfl] at this; rw [this]; rfl
  · intro j
    show ThrOK s0 mx _ s.ref _ (s.thr j)
    rw [hi j]; trivial

theorem Inv.step (hc : Clean s0) (hI : Inv s0 mx s G) (h : Step mx s s') : ∃ G', Inv s0 mx s' G' := by
  cases h with
  | thread i s s' h => exact hI.tstep hc h
  | remove _ R ord h' hi ha hR ho hs =>
    obtain ⟨h2, hs2, hinv⟩ := Inv.remove hc hI hi ha hR ho
    rw [hs] at hs2
    injection hs2 with hs2
    subst hs2
    exact ⟨_, hinv⟩

theorem Inv.steps (hc : Clean s0) {s1 : St} (h1 : ∃ G, Inv s0 mx s1 G) (h : Steps mx s1 s') : ∃ G', Inv s0 mx s' G' := by
  induction h with
  | refl => exact h1
  | tail s2 s3 _ h' ih =>
    obtain ⟨G2, h2⟩ := ih
    exact h2.step hc h'

theorem Inv.reach (hc : Clean s0) {ref : Nat → Nat → Bool} (h : Steps mx ⟨s0, fun _ => .idle, ref⟩ s') : ∃ G', Inv s0 mx s' G' :=
  Inv.steps hc ⟨_, Inv.init hc mx ref⟩ h

end Dyn
end Verif
