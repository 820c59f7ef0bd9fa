import Verif.Spec.Graph
import Verif.Lemmas.Concurrent
/-! Invariants of concurrent moves on a partitioned graph. -/
namespace Verif
namespace GSt
variable {G : AGraph} {k kc : Nat}

theorem setProc_same (s : GSt) (u : Nat) (p : GProc) : s.setProc u p u = p := by simp [setProc]
theorem setProc_other (s : GSt) {u v : Nat} (p : GProc) (h : v ≠ u) : s.setProc u p v = s.proc v := by simp [setProc, h]

theorem isIdle_iff (s : GSt) (u : Nat) : s.isIdle u = true ↔ s.proc u = .idle := by
  unfold isIdle; cases s.proc u <;> simp

theorem quiescent_iff (s : GSt) : s.quiescent G = true ↔ ∀ u ∈ G.nodes, s.proc u = .idle := by
  simp [quiescent, isIdle_iff]

/-- the update produced by the critical section -/
def updOf (G : AGraph) (s : GSt) (u src dst e : Nat) (bv : Option Nat) : GUpdate :=
  let r := critical (s.sync (G.uid e)) s.version u (G.tgt e) dst bv
  { he := e, src := src, dst := dst, weight := G.ew e, other := r.1
    srcAfter := if r.1 = some src then 1 else 0
    dstAfter := if r.1 = some dst then 2 else 1 }

/-- the steps as a relation -/
inductive Step (G : AGraph) (k kc : Nat) (s : GSt) : GAct → GSt → Prop
  | accept {u src dst : Nat} {lim : Int} {sync : Bool} (hu : u ∈ G.nodes) (hd : dst < k) (hi : s.proc u = .idle)
      (hs : s.mayStart G sync = true)
      (hp : s.part u = some src) (hne : src ≠ dst) (hle : addWt s.wt dst (G.nw u) dst ≤ lim) :
      Step G k kc s (.start u dst lim sync)
        { s with wt := addWt s.wt dst (G.nw u), proc := s.setProc u (.accepted src dst sync), dirty := s.dirty || !sync }
  | reject {u src dst : Nat} {lim : Int} {sync : Bool} (hu : u ∈ G.nodes) (hd : dst < k) (hi : s.proc u = .idle)
      (hp : s.part u = some src) :
      Step G k kc s (.start u dst lim sync)
        { s with wt := addWt s.wt dst (G.nw u), proc := s.setProc u (.rejected dst) }
  | release {u src dst : Nat} {sync : Bool} (hq : s.proc u = .accepted src dst sync) :
      Step G k kc s (.tick u)
        { s with wt := addWt s.wt src (-G.nw u)
                 proc := s.setProc u (.run src dst [] none (if sync then G.inc u else [])) }
  | cacheOp {u src dst i : Nat} {a : Int} {t : List (Nat × Int)} {l : Option (Nat × Option Nat)} {rest : List Nat}
      (hq : s.proc u = .run src dst ((i, a) :: t) l rest) :
      Step G k kc s (.tick u)
        { s with cache := fun j => if j = i then s.cache j + a else s.cache j
                 proc := s.setProc u (.run src dst t l rest) }
  | crit {u src dst e : Nat} {bv : Option Nat} {rest : List Nat}
      (hq : s.proc u = .run src dst [] (some (e, bv)) rest) :
      Step G k kc s (.tick u)
        { s with sync := fun x => if x = G.uid e then
                    (critical (s.sync (G.uid e)) s.version u (G.tgt e) dst bv).2 else s.sync x
                 log := s.log ++ [updOf G s u src dst e bv]
                 proc := s.setProc u (.run src dst (gDelta G kc (updOf G s u src dst e bv)) none rest) }
  | load {u src dst e : Nat} {rest : List Nat} (hq : s.proc u = .run src dst [] none (e :: rest)) :
      Step G k kc s (.tick u)
        { s with proc := s.setProc u (.run src dst [] (some (e, s.part (G.tgt e))) rest) }
  | store {u src dst : Nat} (hq : s.proc u = .run src dst [] none []) :
      Step G k kc s (.tick u)
        { s with part := s.part.put u dst, proc := s.setProc u .idle }
  | undo {u dst : Nat} (hq : s.proc u = .rejected dst) :
      Step G k kc s (.tick u)
        { s with wt := addWt s.wt dst (-G.nw u), proc := s.setProc u .idle }
  | reset (hq : s.quiescent G = true) :
      Step G k kc s .resetSync { s with version := s.version + 1, dirty := false }

theorem step_Step {s s' : GSt} {a : GAct} (h : step G k kc s a = some s') : Step G k kc s a s' := by
  cases a with
  | start u dst lim sync =>
    simp only [step] at h
    split at h
    · rename_i hc
      obtain ⟨hu, hd, hi, hs⟩ := hc
      split at h
      · rename_i src hp
        split at h
        · rename_i hne
          split at h
          · rename_i hle
            cases h
            exact .accept hu hd ((isIdle_iff s u).1 hi) hs hp hne hle
          · cases h
            exact .reject hu hd ((isIdle_iff s u).1 hi) hp
        · cases h
      · cases h
    · cases h
  | tick u =>
    simp only [step] at h
    split at h
    · cases h
    · rename_i hq; cases h; exact .release hq
    · rename_i hq; cases h; exact .cacheOp hq
    · rename_i hq; cases h; exact .crit hq
    · rename_i hq; cases h; exact .load hq
    · rename_i hq; cases h; exact .store hq
    · rename_i hq; cases h; exact .undo hq
  | resetSync =>
    simp only [step] at h
    split at h
    · rename_i hq; cases h; exact .reset hq
    · cases h

/-- edges whose critical section is still to come -/
def remaining (l : Option (Nat × Option Nat)) (rest : List Nat) : List Nat :=
  match l with
  | some (e, _) => e :: rest
  | none => rest

/-- the record of edge `e` belongs to the current version -/
def Cur (G : AGraph) (s : GSt) (e : Nat) : Prop := (s.sync (G.uid e)).version = s.version

/-- what a call in progress knows -/
def ProcOk (k : Nat) (s : GSt) (u : Nat) : Prop :=
  match s.proc u with
  | .idle => True
  | .accepted src dst sync => s.part u = some src ∧ dst < k ∧ src ≠ dst ∧ s.dirty = !sync
  | .run src dst pend l rest => s.part u = some src ∧ dst < k ∧ src ≠ dst ∧
      (s.dirty = true → pend = [] ∧ l = none ∧ rest = [])
  | .rejected _ => True

/-- what the records of the edges of `u` say -/
def EntryOk (G : AGraph) (s : GSt) (u : Nat) : Prop :=
  match s.proc u with
  | .run src dst _ l rest => ∃ done, G.inc u = done ++ remaining l rest ∧
      (∀ e ∈ done, Cur G s e ∧ (s.sync (G.uid e)).entry u (G.tgt e) = some dst) ∧
      (∀ e ∈ remaining l rest, ∀ b, Cur G s e → (s.sync (G.uid e)).entry u (G.tgt e) = some b → b = src) ∧
      (∀ e bv, l = some (e, bv) → (Cur G s e ∧ (s.sync (G.uid e)).entry (G.tgt e) u ≠ none) ∨ s.part (G.tgt e) = bv)
  | _ => ∀ e ∈ G.inc u, ∀ b, Cur G s e → (s.sync (G.uid e)).entry u (G.tgt e) = some b → s.part u = some b

structure Inv (G : AGraph) (k : Nat) (s : GSt) : Prop where
  outside : ∀ u, u ∉ G.nodes → s.proc u = .idle
  assigned : ∀ u ∈ G.nodes, ∃ b, b < k ∧ s.part u = some b
  ver : ∀ x, (s.sync x).version ≤ s.version
  proc : ∀ u, ProcOk k s u
  entry : s.dirty = false → ∀ u ∈ G.nodes, EntryOk G s u

theorem Inv.mem {s : GSt} (hI : Inv G k s) {u : Nat} (h : s.proc u ≠ .idle) : u ∈ G.nodes := by
  by_contra hn; exact h (hI.outside u hn)

theorem tgt_ne (hw : G.WF) {u e : Nat} (hu : u ∈ G.nodes) (he : e ∈ G.inc u) :
    G.tgt e ≠ u ∧ G.tgt e ∈ G.nodes ∧ G.uid e ∈ G.edges := by
  have hx : G.uid e ∈ G.edges := ((hw.inc_iff u hu (G.uid e)).1 (List.mem_map_of_mem he)).1
  have h1 := hw.ends_ne _ hx
  have h2 := hw.ends_mem _ hx
  rcases hw.tgt u hu e he with h | h <;> rw [h] at h1 h2 <;> simp only at h1 h2
  · exact ⟨fun hh => h1 hh.symm, h2.2, hx⟩
  · exact ⟨h1, h2.1, hx⟩

theorem uid_inj (hw : G.WF) {u e f : Nat} (hu : u ∈ G.nodes) (he : e ∈ G.inc u) (hf : f ∈ G.inc u)
    (h : G.uid e = G.uid f) : e = f :=
  List.inj_on_of_nodup_map (hw.inc_nodup u hu) he hf h

/-- an edge of another node with the same undirected edge is the reverse edge -/
theorem other_end (hw : G.WF) {u w e f : Nat} (hu : u ∈ G.nodes) (hwn : w ∈ G.nodes) (he : e ∈ G.inc u)
    (hf : f ∈ G.inc w) (hne : w ≠ u) (h : G.uid f = G.uid e) : w = G.tgt e ∧ G.tgt f = u := by
  have h1 := hw.tgt u hu e he
  have h2 := hw.tgt w hwn f hf
  rw [h] at h2
  rcases h1 with h1 | h1 <;> rcases h2 with h2 | h2 <;> rw [h1] at h2 <;> simp only [Prod.mk.injEq] at h2
  · exact absurd h2.1.symm hne
  · exact ⟨h2.2.symm, h2.1.symm⟩
  · exact ⟨h2.1.symm, h2.2.symm⟩
  · exact absurd h2.2.symm hne

/-- the reverse edge exists -/
theorem reverse_exists (hw : G.WF) {u e : Nat} (hu : u ∈ G.nodes) (he : e ∈ G.inc u) :
    ∃ f ∈ G.inc (G.tgt e), G.uid f = G.uid e ∧ G.tgt f = u := by
  obtain ⟨h1, h2, h3⟩ := tgt_ne hw hu he
  have : G.uid e ∈ (G.inc (G.tgt e)).map G.uid := by
    rw [hw.inc_iff _ h2]
    refine ⟨h3, ?_⟩
    rcases hw.tgt u hu e he with h | h <;> rw [h]
    · exact Or.inr rfl
    · exact Or.inl rfl
  obtain ⟨f, hf, hff⟩ := List.mem_map.1 this
  exact ⟨f, hf, hff, (other_end hw hu h2 he hf h1 hff).2⟩

/-! ### The critical section -/
section
variable {m : EdgeMove} {ver u v dst : Nat} {bv : Option Nat}

theorem critical_version : (critical m ver u v dst bv).2.version = ver := by
  unfold critical; simp only; split <;> rfl

theorem critical_own : (critical m ver u v dst bv).2.entry u v = some dst := by
  unfold critical EdgeMove.entry; simp only
  by_cases h : u < v <;> simp [h]

theorem critical_other (hne : u ≠ v) : (critical m ver u v dst bv).2.entry v u =
    if m.version = ver then m.entry v u else none := by
  unfold critical EdgeMove.entry; simp only
  by_cases h : u < v
  · have h' : ¬ v < u := by omega
    simp only [h, h', if_true, if_false]
    by_cases hv : m.version = ver
    · by_cases hm : m.large = none <;> simp [hv, hm]
    · simp [hv]
  · have h' : v < u := by omega
    simp only [h, h', if_true, if_false]
    by_cases hv : m.version = ver
    · by_cases hm : m.small = none <;> simp [hv, hm]
    · simp [hv]

theorem critical_fst : (critical m ver u v dst bv).1 = if m.entry v u ≠ none ∧ m.version = ver then m.entry v u else bv := rfl
end

theorem Inv.step (hw : G.WF) {s s' : GSt} {a : GAct} (hI : Inv G k s) (hst : Step G k kc s a s') : Inv G k s' := by
  -- steps that change only the process of `u`, weights, cache
  have frame : ∀ (u : Nat) (p : GProc) (s' : GSt), u ∈ G.nodes → s'.part = s.part → s'.sync = s.sync →
      s'.version = s.version → s'.dirty = s.dirty → s'.proc = s.setProc u p →
      ProcOk k s' u → (s.dirty = false → EntryOk G s' u) → Inv G k s' := by
    intro u p s' hu h1 h2 h3 h4 h5 hp he
    refine ⟨?_, ?_, ?_, ?_, ?_⟩
    · intro v hv
      rw [h5, setProc_other s p (fun h => hv (by rw [h]; exact hu))]; exact hI.outside v hv
    · intro v hv; rw [h1]; exact hI.assigned v hv
    · intro x; rw [h2, h3]; exact hI.ver x
    · intro v
      by_cases hvu : v = u
      · subst hvu; exact hp
      · have := hI.proc v
        unfold ProcOk at this ⊢
        rw [h5, setProc_other s p hvu, h1, h4]
        exact this
    · intro hd v hv
      rw [h4] at hd
      by_cases hvu : v = u
      · subst hvu; exact he hd
      · have := hI.entry hd v hv
        unfold EntryOk Cur at this ⊢
        rw [h5, setProc_other s p hvu, h1, h2, h3]
        exact this
  cases hst with
  | @accept u src dst lim sync hu hd hi hs hp hne hle =>
    cases sync with
    | true =>
      simp only [mayStart, if_true, Bool.not_eq_true'] at hs
      refine frame u _ _ hu rfl rfl rfl (by simp) rfl ?_ ?_
      · unfold ProcOk
        simp only [setProc_same]
        exact ⟨hp, hd, hne, by simp [hs]⟩
      · intro hd'
        have := hI.entry hd' u hu
        unfold EntryOk Cur at this ⊢
        simp only [setProc_same]
        rw [hi] at this
        exact this
    | false =>
      simp only [mayStart, Bool.false_eq_true, if_false, Bool.or_eq_true] at hs
      refine ⟨?_, hI.assigned, hI.ver, ?_, ?_⟩
      · intro v hv
        show s.setProc u _ v = _
        rw [setProc_other s _ (fun h => hv (by rw [h]; exact hu))]; exact hI.outside v hv
      · intro v
        by_cases hvu : v = u
        · subst hvu
          unfold ProcOk
          simp only [setProc_same]
          exact ⟨hp, hd, hne, by simp⟩
        · have h0 := hI.proc v
          unfold ProcOk at h0 ⊢
          simp only [setProc_other s _ hvu]
          rcases hs with hs | hs
          · rw [hs] at h0 ⊢; exact h0
          · by_cases hv : v ∈ G.nodes
            · rw [(quiescent_iff s).1 hs v hv]; trivial
            · rw [hI.outside v hv]; trivial
      · intro hd'; simp at hd'
  | @reject u src dst lim sync hu hd hi hp =>
    refine frame u _ _ hu rfl rfl rfl rfl rfl ?_ ?_
    · unfold ProcOk; simp only [setProc_same]
    · intro hd'
      have := hI.entry hd' u hu
      unfold EntryOk Cur at this ⊢
      simp only [setProc_same]
      rw [hi] at this
      exact this
  | @release u src dst sync hq =>
    have hu : u ∈ G.nodes := hI.mem (by rw [hq]; simp)
    have hp := hI.proc u
    unfold ProcOk at hp
    rw [hq] at hp
    obtain ⟨a1, a2, a3, a4⟩ := hp
    refine frame u _ _ hu rfl rfl rfl rfl rfl ?_ ?_
    · unfold ProcOk; simp only [setProc_same]
      refine ⟨a1, a2, a3, fun h => ⟨trivial, trivial, ?_⟩⟩
      rw [h] at a4
      have : sync = false := by cases sync <;> simp at a4 ⊢
      simp [this]
    · intro hd'
      have := hI.entry hd' u hu
      unfold EntryOk Cur at this ⊢
      simp only [setProc_same]
      rw [hq] at this
      have hsync : sync = true := by rw [hd'] at a4; cases sync <;> simp at a4 ⊢
      subst hsync
      refine ⟨[], by simp [remaining], by simp, ?_, by simp⟩
      intro e he b hc hb
      have := this e (by simpa [remaining] using he) b hc hb
      rw [a1] at this
      exact (Option.some.inj this).symm
  | @cacheOp u src dst i a t l rest hq =>
    have hu : u ∈ G.nodes := hI.mem (by rw [hq]; simp)
    have hp := hI.proc u
    unfold ProcOk at hp
    rw [hq] at hp
    obtain ⟨a1, a2, a3, a4⟩ := hp
    refine frame u _ _ hu rfl rfl rfl rfl rfl ?_ ?_
    · unfold ProcOk; simp only [setProc_same]
      exact ⟨a1, a2, a3, fun h => by have := (a4 h).1; simp at this⟩
    · intro hd'
      have := hI.entry hd' u hu
      unfold EntryOk Cur at this ⊢
      simp only [setProc_same]
      rw [hq] at this
      exact this
  | @load u src dst e rest hq =>
    have hu : u ∈ G.nodes := hI.mem (by rw [hq]; simp)
    have hp := hI.proc u
    unfold ProcOk at hp
    rw [hq] at hp
    obtain ⟨a1, a2, a3, a4⟩ := hp
    refine frame u _ _ hu rfl rfl rfl rfl rfl ?_ ?_
    · unfold ProcOk; simp only [setProc_same]
      exact ⟨a1, a2, a3, fun h => by have := (a4 h).2.2; simp at this⟩
    · intro hd'
      have := hI.entry hd' u hu
      unfold EntryOk Cur at this ⊢
      simp only [setProc_same]
      rw [hq] at this
      obtain ⟨done, b1, b2, b3, _⟩ := this
      refine ⟨done, b1, b2, b3, ?_⟩
      intro e' bv h
      simp only [Option.some.injEq, Prod.mk.injEq] at h
      obtain ⟨rfl, rfl⟩ := h
      exact Or.inr rfl
  | @undo u dst hq =>
    have hu : u ∈ G.nodes := hI.mem (by rw [hq]; simp)
    refine frame u _ _ hu rfl rfl rfl rfl rfl ?_ ?_
    · unfold ProcOk; simp only [setProc_same]
    · intro hd'
      have := hI.entry hd' u hu
      unfold EntryOk Cur at this ⊢
      simp only [setProc_same]
      rw [hq] at this
      exact this
  | @store u src dst hq =>
    have hu : u ∈ G.nodes := hI.mem (by rw [hq]; simp)
    have hp := hI.proc u
    unfold ProcOk at hp
    rw [hq] at hp
    obtain ⟨a1, a2, a3, a4⟩ := hp
    refine ⟨?_, ?_, hI.ver, ?_, ?_⟩
    · intro v hv
      show s.setProc u _ v = _
      rw [setProc_other s _ (fun h => hv (by rw [h]; exact hu))]; exact hI.outside v hv
    · intro v hv
      by_cases hvu : v = u
      · exact ⟨dst, a2, by simp [Assign.put, hvu]⟩
      · obtain ⟨b, hb, hb'⟩ := hI.assigned v hv
        exact ⟨b, hb, by simp [Assign.put, hvu, hb']⟩
    · intro v
      by_cases hvu : v = u
      · subst hvu; unfold ProcOk; simp only [setProc_same]
      · have h0 := hI.proc v
        unfold ProcOk at h0 ⊢
        simp only [setProc_other s _ hvu, Assign.put, hvu, if_false]
        exact h0
    · intro hd v hv
      have hd : s.dirty = false := hd
      have hue := hI.entry hd u hu
      unfold EntryOk at hue
      rw [hq] at hue
      obtain ⟨done, b1, b2, _, _⟩ := hue
      simp only [remaining, List.append_nil] at b1
      by_cases hvu : v = u
      · subst hvu
        unfold EntryOk
        simp only [setProc_same]
        intro e he b _ hb
        rw [b1] at he
        have h2 := (b2 e he).2
        have hb : (s.sync (G.uid e)).entry v (G.tgt e) = some b := hb
        rw [h2] at hb
        simp only [Assign.put, if_true]
        exact hb
      · have h0 := hI.entry hd v hv
        unfold EntryOk at h0 ⊢
        simp only [setProc_other s _ hvu]
        cases hpv : s.proc v with
        | run src' dst' pend l rest =>
          rw [hpv] at h0
          obtain ⟨done', c1, c2, c3, c4⟩ := h0
          refine ⟨done', c1, c2, c3, ?_⟩
          intro e bv hl
          rcases c4 e bv hl with h | h
          · exact Or.inl h
          · by_cases ht : G.tgt e = u
            · left
              have hev : e ∈ G.inc v := by rw [c1, hl]; simp [remaining]
              obtain ⟨f, hf, hfu, hft⟩ := reverse_exists hw hv hev
              rw [ht] at hf
              have := b2 f (by rw [← b1]; exact hf)
              unfold Cur at this ⊢
              rw [hfu, hft] at this
              refine ⟨this.1, ?_⟩
              show (s.sync (G.uid e)).entry (G.tgt e) v ≠ none
              rw [ht, this.2]; simp
            · right
              simp only [Assign.put, ht, if_false]; exact h
        | idle =>
          rw [hpv] at h0
          simp only [Assign.put, hvu, if_false]; exact h0
        | accepted src' dst' sync =>
          rw [hpv] at h0
          simp only [Assign.put, hvu, if_false]; exact h0
        | rejected dst' =>
          rw [hpv] at h0
          simp only [Assign.put, hvu, if_false]; exact h0
  | @crit u src dst e bv rest hq =>
    have hu : u ∈ G.nodes := hI.mem (by rw [hq]; simp)
    have hp := hI.proc u
    unfold ProcOk at hp
    rw [hq] at hp
    obtain ⟨a1, a2, a3, a4⟩ := hp
    have hd : s.dirty = false := by
      cases h : s.dirty with
      | false => rfl
      | true => have := (a4 h).2.1; simp at this
    have hue := hI.entry hd u hu
    unfold EntryOk at hue
    rw [hq] at hue
    obtain ⟨done, b1, b2, b3, b4⟩ := hue
    simp only [remaining] at b1
    have heu : e ∈ G.inc u := by rw [b1]; simp
    obtain ⟨t1, t2, t3⟩ := tgt_ne hw hu heu
    refine ⟨?_, hI.assigned, ?_, ?_, ?_⟩
    · intro v hv
      show s.setProc u _ v = _
      rw [setProc_other s _ (fun h => hv (by rw [h]; exact hu))]; exact hI.outside v hv
    · intro x
      simp only
      split
      · rw [critical_version]
      · exact hI.ver x
    · intro v
      by_cases hvu : v = u
      · subst hvu; unfold ProcOk; simp only [setProc_same]
        exact ⟨a1, a2, a3, fun h => by have h : s.dirty = true := h; rw [hd] at h; simp at h⟩
      · have h0 := hI.proc v
        unfold ProcOk at h0 ⊢
        simp only [setProc_other s _ hvu]
        exact h0
    · intro _ v hv
      by_cases hvu : v = u
      · subst hvu
        unfold EntryOk
        simp only [setProc_same]
        have hnd := hw.inc_nodup v hv
        rw [b1, List.map_append, List.map_cons, List.nodup_append] at hnd
        refine ⟨done ++ [e], by rw [b1]; simp [remaining], ?_, ?_, by simp⟩
        · intro f hf
          unfold Cur
          simp only
          by_cases hfe : G.uid f = G.uid e
          · have hfi : f ∈ G.inc v := by rw [b1]; simp at hf ⊢; rcases hf with h | h <;> simp [h]
            have := uid_inj hw hv hfi heu hfe
            subst this
            rw [if_pos rfl]
            exact ⟨critical_version, critical_own⟩
          · rw [if_neg hfe]
            have hfd : f ∈ done := by
              simp at hf
              rcases hf with h | h
              · exact h
              · exact absurd (by rw [h]) hfe
            exact b2 f hfd
        · intro f hf b hc hb
          simp only [remaining] at hf
          have hne : G.uid f ≠ G.uid e := by
            intro h
            have := (List.nodup_cons.1 hnd.2.1).1
            exact this (h ▸ List.mem_map_of_mem hf)
          unfold Cur at hc
          simp only [if_neg hne] at hc hb
          exact b3 f (by simp [remaining, hf]) b hc hb
      · -- other node
        have h0 := hI.entry hd v hv
        -- weak form is preserved
        have weak : ∀ (p : Nat → Prop) f, f ∈ G.inc v →
            (∀ b, Cur G s f → (s.sync (G.uid f)).entry v (G.tgt f) = some b → p b) →
            ∀ b, (if G.uid f = G.uid e then (critical (s.sync (G.uid e)) s.version u (G.tgt e) dst bv).2
              else s.sync (G.uid f)).version = s.version →
              (if G.uid f = G.uid e then (critical (s.sync (G.uid e)) s.version u (G.tgt e) dst bv).2
              else s.sync (G.uid f)).entry v (G.tgt f) = some b → p b := by
          intro p f hf h b hc hb
          by_cases hfe : G.uid f = G.uid e
          · rw [if_pos hfe] at hc hb
            obtain ⟨o1, o2⟩ := other_end hw hu hv heu hf hvu hfe
            rw [o2, o1, critical_other t1.symm] at hb
            split at hb
            · rename_i hver
              refine h b ?_ ?_
              · unfold Cur; rw [hfe]; exact hver
              · rw [hfe, o2, o1]; exact hb
            · simp at hb
          · rw [if_neg hfe] at hc hb
            exact h b hc hb
        unfold EntryOk at h0 ⊢
        simp only [setProc_other s _ hvu]
        cases hpv : s.proc v with
        | run src' dst' pend l rest' =>
          rw [hpv] at h0
          obtain ⟨done', c1, c2, c3, c4⟩ := h0
          refine ⟨done', c1, ?_, ?_, ?_⟩
          · intro f hf
            have hfi : f ∈ G.inc v := by rw [c1]; simp [hf]
            have h2 := c2 f hf
            unfold Cur at h2 ⊢
            simp only
            by_cases hfe : G.uid f = G.uid e
            · rw [if_pos hfe]
              obtain ⟨o1, o2⟩ := other_end hw hu hv heu hfi hvu hfe
              refine ⟨critical_version, ?_⟩
              rw [hfe] at h2
              rw [o2, o1, critical_other t1.symm, if_pos h2.1]
              rw [o2, o1] at h2
              exact h2.2
            · rw [if_neg hfe]; exact h2
          · intro f hf b hc hb
            have hfi : f ∈ G.inc v := by rw [c1]; simp [hf]
            exact weak (fun b => b = src') f hfi (c3 f hf) b hc hb
          · intro f bv' hl
            have hfi : f ∈ G.inc v := by rw [c1, hl]; simp [remaining]
            have h4 := c4 f bv' hl
            unfold Cur at h4 ⊢
            simp only
            by_cases hfe : G.uid f = G.uid e
            · left
              rw [if_pos hfe]
              obtain ⟨o1, o2⟩ := other_end hw hu hv heu hfi hvu hfe
              refine ⟨critical_version, ?_⟩
              rw [o2, o1, critical_own]; simp
            · rw [if_neg hfe]; exact h4
        | idle =>
          rw [hpv] at h0
          intro f hf b hc hb
          exact weak (fun b => s.part v = some b) f hf (h0 f hf) b hc hb
        | accepted src' dst' sync =>
          rw [hpv] at h0
          intro f hf b hc hb
          exact weak (fun b => s.part v = some b) f hf (h0 f hf) b hc hb
        | rejected dst' =>
          rw [hpv] at h0
          intro f hf b hc hb
          exact weak (fun b => s.part v = some b) f hf (h0 f hf) b hc hb
  | reset hq =>
    have hq' := (quiescent_iff s).1 hq
    refine ⟨hI.outside, hI.assigned, ?_, ?_, ?_⟩
    · intro x
      show (s.sync x).version ≤ s.version + 1
      have := hI.ver x; omega
    · intro u
      unfold ProcOk
      by_cases hu : u ∈ G.nodes
      · simp only [hq' u hu]
      · simp only [hI.outside u hu]
    · intro _ u hu
      unfold EntryOk
      simp only [hq' u hu]
      intro e _ b hc
      unfold Cur at hc
      have hc : (s.sync (G.uid e)).version = s.version + 1 := hc
      have := hI.ver (G.uid e); omega

end GSt
end Verif
