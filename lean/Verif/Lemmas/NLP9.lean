import Verif.Lemmas.NLP8
import Verif.Props.C05_C06_C11_C14
/-!
# Entries of the gain cache that are not touched; refinement on the current hypergraph
-/
namespace Verif

/-- index `i` belongs to the entry of node `u` -/
def inEntry (k u i : Nat) : Prop := u * (k + 1) ≤ i ∧ i < (u + 1) * (k + 1)

theorem inEntry_pen (k u : Nat) : inEntry k u (penIdx k u) := by
  unfold inEntry penIdx
  refine ⟨Nat.le_refl _, ?_⟩
  rw [Nat.succ_mul]; omega

theorem inEntry_ben {k u b : Nat} (hb : b < k) : inEntry k u (benIdx k u b) := by
  unfold inEntry benIdx
  rw [Nat.succ_mul]; omega

theorem inEntry_uniq {k u v i : Nat} (h : inEntry k u i) (h' : inEntry k v i) : u = v := by
  obtain ⟨h1, h2⟩ := h
  obtain ⟨h3, h4⟩ := h'
  rcases Nat.lt_trichotomy u v with hlt | heq | hgt
  · have : (u + 1) * (k + 1) ≤ v * (k + 1) := Nat.mul_le_mul_right _ hlt
    omega
  · exact heq
  · have : (v + 1) * (k + 1) ≤ u * (k + 1) := Nat.mul_le_mul_right _ hgt
    omega

theorem foldl_keep {β : Type} (f : (Nat → Int) × β → Nat → (Nat → Int) × β) (i : Nat) : ∀ (l : List Nat), (∀ r b, b ∈ l → (f r b).1 i = r.1 i) →
    ∀ r, (l.foldl f r).1 i = r.1 i
  | [], _, _ => rfl
  | b :: l, h, r => by
    rw [List.foldl_cons, foldl_keep f i l (fun r b hb => h r b (by simp [hb])), h r b (by simp)]

section
variable {σ : Type} {C : ConInfo σ} {H : HG} {k : Nat} {o : Metrics.Obj}

theorem initTask_keep {P : PHG σ} {threads : List Nat} (t : InitTask) {i : Nat} (hi : ¬ inEntry k t.node i) (st : (Nat → Int) × (Nat → Nat → Int)) :
    (t.run C H k o P threads st).1 i = st.1 i := by
  cases t with
  | low t u =>
    have hi : ¬ inEntry k u i := hi
    have hb : ∀ b, b < k → i ≠ benIdx k u b := fun b hb h => hi (h ▸ inEntry_ben hb)
    have hp : i ≠ penIdx k u := fun h => hi (h ▸ inEntry_pen k u)
    show (initEntry C H k o P (st.1, st.2 t) u).1 i = _
    unfold initEntry
    cases P.part u with
    | none => rfl
    | some from' =>
      simp only
      unfold storeEntry
      rw [foldl_keep]
      · exact if_neg hp
      · intro r b hb'
        exact if_neg (hb b (List.mem_range.1 hb'))
  | high u chunks =>
    have hi : ¬ inEntry k u i := hi
    have hb : ∀ b, b < k → i ≠ benIdx k u b := fun b hb h => hi (h ▸ inEntry_ben hb)
    have hp : i ≠ penIdx k u := fun h => hi (h ▸ inEntry_pen k u)
    show (initHigh C H k o P threads st u chunks).1 i = _
    unfold initHigh
    cases P.part u with
    | none => rfl
    | some from' =>
      simp only
      rw [foldl_keep]
      · exact if_neg hp
      · intro r b hb'
        exact if_neg (hb b (List.mem_range.1 hb'))

theorem initCache_keep {P : PHG σ} {threads : List Nat} {tasks : List InitTask} {i : Nat} (hi : ∀ t ∈ tasks, ¬ inEntry k t.node i) (cache : Nat → Int) :
    (initCache C H k o P threads tasks cache).1 i = cache i := by
  unfold initCache
  generalize (fun _ _ => (0 : Int) : Nat → Nat → Int) = z
  induction tasks generalizing cache z with
  | nil => rfl
  | cons t l ih =>
    rw [List.foldl_cons]
    have := ih (fun t ht => hi t (by simp [ht])) (t.run C H k o P threads (cache, z)).1 (t.run C H k o P threads (cache, z)).2
    rw [Prod.mk.eta] at this
    rw [this]
    exact initTask_keep t (hi t (by simp)) (cache, z)

def CacheOp.idx : CacheOp → Nat
  | .add i _ => i
  | .addIf _ _ i _ => i

theorem gainDelta_entry (pins : List Nat) (s : EdgeUpdate) (hs : s.src < k) (hd : s.dst < k) : ∀ op ∈ gainDelta o k pins s, ∃ u ∈ pins, inEntry k u op.idx := by
  have hkm : ∀ op ∈ km1Delta k pins s, ∃ u ∈ pins, inEntry k u op.idx := by
    intro op hop
    unfold km1Delta at hop
    rw [List.mem_append] at hop
    have := fun u => inEntry_pen k u
    have := fun u => inEntry_ben (u := u) hs
    have := fun u => inEntry_ben (u := u) hd
    rcases hop with hop | hop <;> split at hop <;> (try split at hop) <;>
      simp only [List.mem_flatMap, List.mem_singleton, List.not_mem_nil] at hop
    all_goals
      obtain ⟨u, hu, rfl⟩ := hop
      exact ⟨u, hu, by simp only [CacheOp.idx]; first | exact inEntry_pen k u | exact inEntry_ben hs | exact inEntry_ben hd⟩
  have hcut : ∀ op ∈ cutDelta k pins s, ∃ u ∈ pins, inEntry k u op.idx := by
    intro op hop
    unfold cutDelta at hop
    split at hop
    · rw [List.mem_append] at hop
      rcases hop with hop | hop <;> split at hop <;> (try split at hop) <;>
        simp only [List.mem_flatMap, List.mem_singleton, List.mem_cons, List.not_mem_nil, or_false] at hop
      all_goals
        obtain ⟨u, hu, hop⟩ := hop
        refine ⟨u, hu, ?_⟩
        first
        | (subst hop; simp only [CacheOp.idx]; first | exact inEntry_pen k u | exact inEntry_ben hs | exact inEntry_ben hd)
        | (rcases hop with rfl | rfl <;> simp only [CacheOp.idx] <;> first | exact inEntry_pen k u | exact inEntry_ben hs | exact inEntry_ben hd)
    · cases hop
  intro op hop
  cases o with
  | km1 => exact hkm op hop
  | cut => exact hcut op hop
  | soed =>
    change op ∈ soedDelta k pins s at hop
    unfold soedDelta at hop
    split at hop
    · rcases List.mem_append.1 hop with h | h
      · exact hkm op h
      · exact hcut op h
    · cases hop

theorem updateEdge_blocks (con : σ) (e src dst : Nat) : (PHG.updateEdge C H con e src dst).1.src = src ∧ (PHG.updateEdge C H con e src dst).1.dst = dst := by
  unfold PHG.updateEdge; exact ⟨rfl, rfl⟩

open CSt PHG

/-- operations that are still to be executed belong to the entries of nodes -/
def OpsIn (H : HG) (k : Nat) (s : CSt σ) : Prop := ∀ u, ∀ op ∈ pendOf (s.proc u), ∃ v ∈ H.nodes, inEntry k v op.idx

theorem keep_step {m mx : Nat} {L : C.Lawful m k mx} (hw : H.WF) {s s' : CSt σ} {a : Act} (hI : CSt.Inv L H s) (hO : OpsIn H k s)
    {i : Nat} (hi : ∀ v ∈ H.nodes, ¬ inEntry k v i) (h : CSt.Step C H k o s a s') : OpsIn H k s' ∧ s'.cache i = s.cache i := by
  have hset : ∀ (u : Nat) (p : Proc), (∀ op ∈ pendOf p, ∃ v ∈ H.nodes, inEntry k v op.idx) →
      ∀ w, ∀ op ∈ pendOf (s.setProc u p w), ∃ v ∈ H.nodes, inEntry k v op.idx := by
    intro u p hp w op hop
    by_cases hw' : w = u
    · subst hw'; rw [setProc_same] at hop; exact hp op hop
    · rw [setProc_other _ _ hw'] at hop; exact hO w op hop
  cases h with
  | accept hu hd hi hp hne hle => exact ⟨hset _ _ (fun op h => by cases h), rfl⟩
  | reject hu hd hi hp hne => exact ⟨hset _ _ (fun op h => by cases h), rfl⟩
  | place hq => exact ⟨hset _ _ (fun op h => by cases h), rfl⟩
  | release hq =>
    refine ⟨hset _ _ (fun op h => ?_), rfl⟩
    change op ∈ pendOps _ at h
    rw [pendOps_edges] at h; cases h
  | ret hq => exact ⟨hset _ _ (fun op h => by cases h), rfl⟩
  | @edge u src dst e t hq =>
    refine ⟨hset _ _ (fun op h => ?_), rfl⟩
    change op ∈ pendOps _ at h
    rw [pendOps_cache_append, List.mem_append] at h
    have hu : u ∈ H.nodes := hI.mem (by rw [hq]; intro h; cases h)
    have hpo := hI.procOK u hu
    rw [hq] at hpo
    obtain ⟨_, _, hs, hd, _, _, hinc, _⟩ := hpo
    rcases h with h | h
    · obtain ⟨v, hv, hv'⟩ := gainDelta_entry _ _ (by rw [(updateEdge_blocks _ _ _ _).1]; exact hs) (by rw [(updateEdge_blocks _ _ _ _).2]; exact hd) op h
      have he : e ∈ H.inc u := hinc e (by simp [pendEdges])
      exact ⟨v, hw.pins_mem e ((hw.inc_iff u hu e).1 he).1 v hv, hv'⟩
    · refine hO u op ?_
      rw [hq]
      show op ∈ pendOps (Micro.edge e :: t)
      simpa [pendOps] using h
  | @test u src dst v b i' a t hq =>
    refine ⟨hset _ _ (fun op h => ?_), rfl⟩
    change op ∈ pendOps _ at h
    have hold : ∀ op ∈ CacheOp.addIf v b i' a :: pendOps t, ∃ v ∈ H.nodes, inEntry k v op.idx := by
      intro op hop
      refine hO u op ?_
      rw [hq]
      show op ∈ pendOps (Micro.cache _ :: t)
      simpa [pendOps] using hop
    split at h
    · have h' : op ∈ CacheOp.add i' a :: pendOps t := by simpa [pendOps] using h
      rcases List.mem_cons.1 h' with rfl | h''
      · exact hold (.addIf v b i' a) (by simp)
      · exact hold op (by simp [h''])
    · exact hold op (by simp [h])
  | @add u src dst i' a t hq =>
    have hold : ∀ op ∈ CacheOp.add i' a :: pendOps t, ∃ v ∈ H.nodes, inEntry k v op.idx := by
      intro op hop
      refine hO u op ?_
      rw [hq]
      show op ∈ pendOps (Micro.cache _ :: t)
      simpa [pendOps] using hop
    refine ⟨hset _ _ (fun op h => hold op (by simp only [List.mem_cons]; exact Or.inr h)), ?_⟩
    obtain ⟨v, hv, hv'⟩ := hold (.add i' a) (by simp)
    refine if_neg ?_
    rintro rfl
    exact hi v hv hv'
  | undo hq => exact ⟨hset _ _ (fun op h => by cases h), rfl⟩
  | recomp hu hq =>
    refine ⟨hO, if_neg ?_⟩
    rintro rfl
    exact hi _ hu (inEntry_pen _ _)

/-- concurrent moves do not touch the entries of nodes that are not present -/
theorem exec_keep {m mx : Nat} {L : C.Lawful m k mx} (hw : H.WF) (hf : H.Fits m mx) {P : PHG σ} {Φ : Assign} (hS : Sim L H P Φ) (hall : ∀ v ∈ H.nodes, Φ v ≠ none)
    {cache : Nat → Int} {as : List Act} {s : CSt σ} (he : CSt.exec C H k o (CSt.begin P cache) as = some s) {i : Nat} (hi : ∀ v ∈ H.nodes, ¬ inEntry k v i) :
    s.cache i = cache i := by
  have := exec_ind (Q := fun s => CSt.Inv L H s ∧ OpsIn H k s ∧ s.cache i = cache i) (fun s a s' hQ hst => by
    obtain ⟨q1, q2, q3⟩ := hQ
    obtain ⟨h1, h2⟩ := keep_step hw q1 q2 hi hst
    exact ⟨(q1.step hw hf hst).1, h1, h2.trans q3⟩) as ⟨(begin_inv hS hall cache).1, fun u op h => (by cases h), rfl⟩ he
  exact this.2.2

theorem step_edges (E : List Nat) (s : CSt σ) (a : Act) : CSt.step C { H with edges := E } k o s a = CSt.step C H k o s a := by
  cases a with
  | start u dst lim => rfl
  | tick u => rfl
  | recompute u => rfl

theorem exec_edges (E : List Nat) : ∀ (as : List Act) (s : CSt σ), CSt.exec C { H with edges := E } k o s as = CSt.exec C H k o s as
  | [], s => rfl
  | a :: as, s => by
    unfold CSt.exec
    rw [step_edges]
    cases CSt.step C H k o s a with
    | none => rfl
    | some s' => exact exec_edges E as s'

theorem initCache_edges (E : List Nat) (P : PHG σ) (threads : List Nat) (tasks : List InitTask) (cache : Nat → Int) :
    initCache C { H with edges := E } k o P threads tasks cache = initCache C H k o P threads tasks cache := by
  unfold initCache
  congr 1

end
end Verif
