import Verif.Lemmas.NLP6
import Verif.Lemmas.Dyn30
/-!
# Slots of the nets, and the nets that are restored
-/
namespace Verif
namespace Dyn
open SMap (wr)

theorem swapN_len (l : List Nat) (i j : Nat) : (swapN l i j).length = l.length := by
  unfold swapN; simp

theorem ceLoop_len {u v last : Nat} : ∀ (fuel idx slot : Nat) (l : List Nat) {l' : List Nat} {q : Nat}, ceLoop u v last fuel idx slot l = some (l', q) → l'.length = l.length
  | 0, _, _, _, _, _, h => by cases h
  | fuel + 1, idx, slot, l, l', q, h => by
    unfold ceLoop at h
    split at h
    · injection h with h; injection h with h1 h2; rw [h1]
    · split at h
      · rw [ceLoop_len fuel _ _ _ h, swapN_len]
      · split at h
        · exact ceLoop_len fuel _ _ _ h
        · exact ceLoop_len fuel _ _ _ h

theorem contractHE_len {u v size : Nat} {l l' : List Nat} {q : Nat} {b : Bool} (h : contractHE u v l size = some (l', q, b)) : l'.length = l.length := by
  unfold contractHE at h
  split at h
  · cases h
  · rename_i l1 slot h1
    split at h
    · injection h with h; injection h with h2 h3; rw [← h2]; exact ceLoop_len _ _ _ _ h1
    · injection h with h; injection h with h2 h3; rw [← h2, List.length_set]; exact ceLoop_len _ _ _ _ h1

variable {mx : Int} {s s' : St}

theorem TStep.slots {i : Nat} (h : TStep mx i s s') (e : Nat) : (s'.h.pins e).length = (s.h.pins e).length := by
  cases h with
  | edge u v st j sh failed l e' l' k b hi hl he hc =>
    show (wr s.h.pins e' l' e).length = _
    by_cases h : e = e'
    · subst h; rw [wr_same]; exact contractHE_len hc
    · rw [wr_other _ _ h]
  | lateEdge u v st sh e' failed l' k b hi hc =>
    show (wr s.h.pins e' l' e).length = _
    by_cases h : e = e'
    · subst h; rw [wr_same]; exact contractHE_len hc
    · rw [wr_other _ _ h]
  | _ => rfl

theorem Steps.slots (h : Steps mx s s') (e : Nat) : (s'.h.pins e).length = (s.h.pins e).length := by
  induction h with
  | refl => rfl
  | tail s1 s2 h h' ih =>
    rw [← ih]
    cases h' with
    | thread i _ _ h' => exact h'.slots e
    | remove _ R ord h' hi ha hR ho hs =>
      unfold DH.removeNetsStep at hs
      split at hs
      · cases hs
      injection hs with hs
      subst hs
      show (if _ then _ else _ : List Nat).length = _
      split
      · rw [List.length_append, List.length_mergeSort, List.length_drop]
        unfold DH.edgePins
        rw [List.length_take]; omega
      · rfl

theorem Prepared.slots {h h' : DH} {L : List (List (List (Nat × Nat)))} (hP : Prepared h L h') (e : Nat) : (h'.pins e).length = (h.pins e).length := by
  have h1 := congrArg List.length (hP.valid e)
  have h2 := (hP.perm e).length_eq
  unfold DH.edgePins at h1
  simp only [List.length_take, List.length_drop] at h1 h2
  omega

/-! ### removed nets that are parallel to other nets have two pins -/

def PastTwo (s0 : DH) (par ver : Nat → Nat) : Nat → List RemovedNets → Prop
  | k + 1, R :: rest => (∀ e r, (e, some r) ∈ R → ∃ ρ, Resp par ver k ρ ∧ 2 ≤ (img s0 ρ e).card) ∧ PastTwo s0 par ver k rest
  | _, _ => True

variable {s0 : DH} {par ver par' ver' bi : Nat → Nat} {G : Gh}

theorem PastTwo.congr {V : Nat} {l : List RemovedNets} (h : PastTwo s0 par ver V l)
    (hR : ∀ k < V, ∀ ρ, Resp par ver k ρ → Resp par' ver' k ρ) : PastTwo s0 par' ver' V l := by
  induction V generalizing l with
  | zero => trivial
  | succ k ih =>
    cases l with
    | nil => trivial
    | cons R rest =>
      refine ⟨fun e r he => ?_, ih h.2 (fun k hk => hR k (by omega))⟩
      obtain ⟨ρ, h1, h2⟩ := h.1 e r he
      exact ⟨ρ, hR k (by omega) ρ h1, h2⟩

theorem TStep.resp {i : Nat} (h : TStep mx i s s') {k : Nat} (hk : k < s.h.V) {ρ : Nat → Nat} (hρ : Resp s.h.par s.h.ver k ρ) :
    Resp s'.h.par s'.h.ver k ρ := by
  have hfail : ∀ v, Resp (wr s.h.par v v) (wr s.h.ver v kInvVer) k ρ := by
    intro v x hx hxk
    have hxv : x ≠ v := by
      rintro rfl
      rw [wr_same] at hx; exact hx rfl
    rw [wr_other _ _ hxv] at hx hxk ⊢
    exact hρ x hx hxk
  cases h with
  | register w v hi hw hv hwv ew ev hp hr =>
    intro x hx hxk
    change wr s.h.par v w x ≠ x at hx
    change wr s.h.ver v s.h.V x ≤ k at hxk
    show ρ (wr s.h.par v w x) = ρ x
    have hxv : x ≠ v := by rintro rfl; rw [wr_same] at hxk; omega
    rw [wr_other _ _ hxv] at hx hxk ⊢
    exact hρ x hx hxk
  | tooHeavy u v hi ev hp hw => exact hfail v
  | refused u v hi ev hp h0 hw => exact hfail v
  | _ => exact hρ

/-- the node in which `v` is contained -/
noncomputable def rootOf (p : Nat → Nat) (v : Nat) : Nat := by
  classical exact if h : ∃ i, p (p^[i] v) = p^[i] v then p^[Nat.find h] v else v

theorem iter_fix {p : Nat → Nat} {r : Nat} (h : p r = r) (i : Nat) : p^[i] r = r := by
  induction i with
  | zero => rfl
  | succ i ih => rw [Function.iterate_succ_apply', ih, h]

theorem rootOf_eq {p : Nat → Nat} {v r i : Nat} (hr : p r = r) (h : p^[i] v = r) : rootOf p v = r := by
  classical
  have hex : ∃ i, p (p^[i] v) = p^[i] v := ⟨i, by rw [h, hr]⟩
  unfold rootOf
  rw [dif_pos hex]
  have h1 := Nat.find_spec hex
  have h2 : Nat.find hex ≤ i := Nat.find_min' hex (by rw [h, hr])
  obtain ⟨d, rfl⟩ : ∃ d, i = d + Nat.find hex := ⟨i - Nat.find hex, by omega⟩
  rw [Function.iterate_add_apply, iter_fix h1] at h
  exact h

theorem rootOf_par {p : Nat → Nat} {v : Nat} (ha : ∃ i, p (p^[i] v) = p^[i] v) : rootOf p (p v) = rootOf p v := by
  obtain ⟨i, hi⟩ := ha
  rw [rootOf_eq hi rfl]
  refine rootOf_eq (i := i) hi ?_
  rw [← Function.iterate_succ_apply, Function.iterate_succ_apply', hi]

theorem rootOf_self {p : Nat → Nat} {v : Nat} (h : p v = v) : rootOf p v = v := rootOf_eq (i := 0) h rfl

theorem ncard_roots {l : List Nat} {ρ : Nat → Nat} (hn : l.Nodup) (h : ∀ x ∈ l, ρ x = x) : ((l.map ρ).toFinset).card = l.length := by
  have : l.map ρ = l := by
    conv_rhs => rw [← List.map_id l]
    exact List.map_congr_left (fun x hx => by rw [h x hx]; rfl)
  rw [this, List.toFinset_card_of_nodup hn]

theorem two_reach (hc : Clean s0) {ref : Nat → Nat → Bool} (h : Steps mx ⟨s0, fun _ => .idle, ref⟩ s) : PastTwo s0 s.h.par s.h.ver s.h.V s.h.removed := by
  induction h with
  | refl =>
    show PastTwo s0 s0.par s0.ver s0.V s0.removed
    rw [hc.V, hc.removed]; trivial
  | tail s1 s2 h h' ih =>
    obtain ⟨G, hI⟩ := Inv.reach hc h
    cases h' with
    | thread i _ _ h' =>
      obtain ⟨e1, e2, e3⟩ := h'.same_past
      rw [e1, e2]
      exact ih.congr (fun k hk ρ hρ => h'.resp hk hρ)
    | remove _ R ord h' hi ha hR ho hs =>
      have hf : ∀ v, s1.h.par v ≠ v → G.fin v = true := fun v hv => hI.all_fin hi ha hv
      have hC := hI.contracted hc hf
      unfold DH.removeNetsStep at hs
      split at hs
      · cases hs
      injection hs with hs
      subst hs
      show PastTwo s0 s1.h.par s1.h.ver (s1.h.V + 1) (R :: s1.h.removed)
      refine ⟨fun e r he => ?_, ih⟩
      have hee := hR.enabled _ he
      have hacy : ∀ v, ∃ i, s1.h.par (s1.h.par^[i] v) = s1.h.par^[i] v := by
        intro v
        by_cases hv : s1.h.par v = v
        · exact ⟨0, hv⟩
        · exact ha v (hI.par_lt hv)
      refine ⟨rootOf s1.h.par, fun v hv _ => rootOf_par (hacy v), ?_⟩
      rw [← hC.img (ρ := rootOf s1.h.par) (fun v hv => hacy v) (fun v => rootOf_par (hacy v)) ?_ ?_ (by rw [← hI.t.mEq]; exact hee.1) hee.2 ((hI.n.enabled e).1 hee.2).1]
      · have hem : e < s0.m := by rw [← hI.t.mEq]; exact hee.1
        rw [ncard_roots (hC.pinsNodup e hem hee.2) ?_]
        · have hsz : ¬ s1.h.size e ≤ 1 := by
            intro hle
            have h1 := (hR.single e).2 ⟨hee.1, hee.2, hle⟩
            have := List.inj_on_of_nodup_map hR.nodup h1 he rfl
            cases this
          have hle := (hI.e.pins e ⟨hem, ((hI.n.enabled e).1 hee.2).1⟩).le
          unfold DH.edgePins
          rw [List.length_take]; omega
        · intro x hx
          obtain ⟨v, _, h1, _⟩ := (hC.pins e hem hee.2 x).1 hx
          exact rootOf_self h1
      · intro v hv
        by_cases hp : s1.h.par v = v
        · rw [hp]; exact hv
        · exact (hI.p.root v hp).2
      · intro e hu v hv
        exact hc.pins e hu v (List.mem_of_mem_take hv)

theorem two_unc {x y : List (List (List (Nat × Nat))) × DH} (h : UncSteps x y)
    (hx : PastTwo s0 par ver (x.1.length - 1) x.2.removed) : PastTwo s0 par ver (y.1.length - 1) y.2.removed := by
  induction h with
  | refl => exact hx
  | tail y z h h' ih =>
    cases h' with
    | batch L' B b s1 s2 hu =>
      obtain ⟨tk, flag, hs, _⟩ := hu
      obtain ⟨e1, e2⟩ := hs.same_past
      have e1 : s2.removed = s1.removed := e1
      show PastTwo s0 par ver ((L' ++ [B]).length - 1) s2.removed
      rw [e1]
      simpa using ih
    | nets L' B s1 s2 R rest ord hr ho hs =>
      unfold DH.restoreNetsStep at hs
      split at hs
      · cases hs
      injection hs with hs
      subst hs
      have ih' : PastTwo s0 par ver (L'.length + 1) (R :: rest) := by
        rw [← hr]; simpa using ih
      have := ih'.2
      simpa using this

/-! ### what is known when nets are restored -/

structure NetsOK (m : Nat) (h h' : DH) (R : RemovedNets) : Prop where
  nodup : (R.map Prod.fst).Nodup
  gone : ∀ p ∈ R, p.1 < m ∧ h.een p.1 = false
  single : ∀ e, (e, none) ∈ R → h'.size e = 1 ∧ ∃ x, h'.edgePins e = [x]
  par : ∀ e r, (e, some r) ∈ R → h'.size e ≠ 1 ∧ r < m ∧ h.een r = true ∧ (h'.edgePins e).Perm (h'.edgePins r)
  een : h'.een = fun e => h.een e || (R.map Prod.fst).contains e
  ew : h'.ew = fun e => h.ew e - addedWeight h.ew R e
  pins : h'.pins = h.pins
  size : h'.size = h.size
  nodes : h'.n = h.n ∧ h'.en = h.en ∧ h'.wt = h.wt ∧ h'.par = h.par
  pinNodup : ∀ e, e < m → h'.een e = true → (h'.edgePins e).Nodup

variable {L : List (List (List (Nat × Nat)))}

theorem UncInv.netsOK (hc : Clean s0) (hS : Stat s0 par ver bi G) (hT : SchedOK par ver bi L) {L1 : List (List (List (Nat × Nat)))} {B : List (List (Nat × Nat))}
    {h h' : DH} {U' : UG} {R : RemovedNets} {rest : List RemovedNets} {ord : List Nat} (hr : h.removed = R :: rest)
    (hs : { h with removed := rest }.restoreNetsStep R ord = some h') (hI' : UncInv s0 par ver bi G L L1 B h' U')
    (hfull : ∀ v, par v ≠ v → ver v ≤ L1.length → U'.mg v = true)
    (hp : PastOK s0 par ver (L1.length + 1) h.removed h.een) (h2 : PastTwo s0 par ver (L1.length + 1) h.removed)
    (hne : ∀ e, s0.used e → 0 < s0.size e) : NetsOK s0.m h h' R := by
  have hC := hI'.contracted hc hS hT
  have hB := hI'.inv
  rw [hI'.memento hT] at hC
  rw [hr] at hp h2
  obtain ⟨p1, p2, p3, p4, p5⟩ := hp
  obtain ⟨t1, _⟩ := h2
  unfold DH.restoreNetsStep at hs
  split at hs
  · cases hs
  injection hs with hs
  have e1 : h'.een = fun e => h.een e || (R.map Prod.fst).contains e := by rw [← hs]
  have hin : ∀ p ∈ R, h'.een p.1 = true := by
    intro p hp
    have : (R.map Prod.fst).contains p.1 = true := List.contains_iff_mem.2 (List.mem_map.2 ⟨p, hp, rfl⟩)
    show h'.een p.1 = true
    rw [e1]; simp only [this, Bool.or_true]
  have hacy := hB.rest_acyclic hS
  have hrest : ∀ ρ, Resp par ver L1.length ρ → ∀ v, ρ (restPar par U'.mg v) = ρ v := by
    intro ρ hρ v
    by_cases hm : U'.mg v = true
    · rw [restPar_mg hm]
      refine hρ v (hB.core.tree.par_ne hm) ?_
      exact (hB.verV hm)
    · rw [restPar_root (by simpa using hm)]
  have himg : ∀ ρ, Resp par ver L1.length ρ → ∀ e, e < s0.m → h'.een e = true → ((h'.edgePins e).map ρ).toFinset = img s0 ρ e := by
    intro ρ hρ e he hen
    refine hC.img (fun v _ => hacy v) (hrest ρ hρ) ?_ ?_ he hen ((hB.core.een e).1 hen).1
    · intro v hv
      by_cases hm : U'.mg v = true
      · rw [restPar_mg hm]; exact (hS.live v (hB.core.tree.par_ne hm)).2
      · rw [restPar_root (by simpa using hm)]; exact hv
    · intro e hu v hv
      exact hc.pins e hu v (List.mem_of_mem_take hv)
  have hρ : Resp par ver L1.length (rootOf (restPar par U'.mg)) := by
    intro v hv hk
    have := rootOf_par (hacy v)
    rwa [restPar_mg (hfull v hv hk)] at this
  have hroot : ∀ e, e < s0.m → h'.een e = true → ∀ x ∈ h'.edgePins e, rootOf (restPar par U'.mg) x = x := by
    intro e he hen x hx
    obtain ⟨v, _, h1, _⟩ := (hC.pins e he hen x).1 hx
    exact rootOf_self h1
  have hlen : ∀ e, e < s0.m → h'.een e = true → (h'.edgePins e).length = h'.size e := by
    intro e he hen
    have := (hB.core.pins e ⟨he, ((hB.core.een e).1 hen).1⟩).le
    unfold DH.edgePins
    rw [List.length_take]; omega
  refine ⟨p1, p2, ?_, ?_, e1, by rw [← hs], by rw [← hs], by rw [← hs], by rw [← hs]; exact ⟨rfl, rfl, rfl, rfl⟩, fun e he hen => hC.pinsNodup e he hen⟩
  · intro e he
    have hem := (p2 _ he).1
    have hen := hin _ he
    have hcard := p3 e he _ hρ
    rw [← himg _ hρ e hem hen, ncard_roots (hC.pinsNodup e hem hen) (hroot e hem hen)] at hcard
    have hu : s0.used e := ⟨hem, ((hB.core.een e).1 hen).1⟩
    have hne' : h'.edgePins e ≠ [] := by
      intro h0
      have hpos := hne e hu
      have hsz := hc.size e hu
      obtain ⟨v, hv⟩ : ∃ v, v ∈ s0.edgePins e := by
        refine List.exists_mem_of_length_pos ?_
        unfold DH.edgePins
        rw [List.length_take]; omega
      obtain ⟨i, hi⟩ := hacy v
      have := (hC.pins e hem hen _).2 ⟨v, hv, hi, i, rfl⟩
      rw [h0] at this; cases this
    have h1 : (h'.edgePins e).length = 1 := by
      have := List.length_pos_iff.2 hne'
      omega
    exact ⟨by rw [← hlen e hem hen]; exact h1, List.length_eq_one_iff.1 h1⟩
  · intro e r he
    have hem := (p2 _ he).1
    have hen := hin _ he
    obtain ⟨q1, q2, q3⟩ := p4 e r he
    have hrn : h'.een r = true := by rw [e1]; simp [q2]
    refine ⟨?_, q1, q2, ?_⟩
    · obtain ⟨ρ, g1, g2⟩ := t1 e r he
      rw [← himg ρ g1 e hem hen] at g2
      have := Nat.le_trans g2 (List.toFinset_card_le _)
      rw [List.length_map, hlen e hem hen] at this
      omega
    · refine (List.perm_ext_iff_of_nodup (hC.pinsNodup e hem hen) (hC.pinsNodup r q1 hrn)).2 (fun x => ?_)
      have h3 : (h'.edgePins e).map (rootOf (restPar par U'.mg)) = h'.edgePins e := by
        conv_rhs => rw [← List.map_id (h'.edgePins e)]
        exact List.map_congr_left (fun x hx => by rw [hroot e hem hen x hx]; rfl)
      have h4 : (h'.edgePins r).map (rootOf (restPar par U'.mg)) = h'.edgePins r := by
        conv_rhs => rw [← List.map_id (h'.edgePins r)]
        exact List.map_congr_left (fun x hx => by rw [hroot r q1 hrn x hx]; rfl)
      have h5 := himg _ hρ e hem hen
      rw [q3 _ hρ, ← himg _ hρ r q1 hrn, h3, h4] at h5
      rw [← List.mem_toFinset, h5, List.mem_toFinset]

/-- contractions of the current version are still present -/
theorem UncInv.netsFull (hT : SchedOK par ver bi L) {L1 : List (List (List (Nat × Nat)))} {B : List (List (Nat × Nat))} {h h' : DH} {U U' : UG}
    (hI : UncInv s0 par ver bi G L (L1 ++ [B]) [] h U) (hI' : UncInv s0 par ver bi G L L1 B h' U') {v : Nat} (hv : par v ≠ v) (hk : ver v ≤ L1.length) :
    U'.mg v = true := by
  obtain ⟨B2, L2, hL⟩ := hI.pre
  have hL' : L = L1 ++ B :: (([] : List (List (Nat × Nat))) ++ B2) :: L2 := by rw [hL]; simp
  have hk1 : L[L1.length]? = some B := by rw [hL']; exact getElem?_mid _ _ _
  have ho := off_succ hk1
  rw [hI'.inv.mg_iff]
  refine ⟨hv, ?_⟩
  obtain ⟨k', i, A, b, a1, a2, a3⟩ := hT.mem v hv
  have e1 := hT.ver _ _ _ _ _ _ a1 a2 a3
  rw [((hT.batch _ _ _ _ a1 a2).mem _ _).1 a3 |>.2.2]
  have h1 := off_succ a1
  have h2 := off_mono L (show k' + 1 ≤ L1.length + 1 by omega)
  have h3 := (List.getElem?_eq_some_iff.1 a2).1
  omega

end Dyn
end Verif
