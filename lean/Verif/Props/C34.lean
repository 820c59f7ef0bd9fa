import Verif.Model.Api
import Mathlib.Tactic.Tauto
/-!
# C34  Setting parameters, presets and data structure types of the interface
-/
namespace Verif
namespace Api
variable {δ ρ : Type}

/-! ### Specification -/

/-- the part of the context that a parameter names -/
inductive Field where
  | k | epsilon | objective | numVcycles | logging
  deriving DecidableEq

def Param.field : Param → Option Field
  | .numBlocks => some .k
  | .epsilon => some .epsilon
  | .objective => some .objective
  | .numVcycles => some .numVcycles
  | .verbose => some .logging
  | .other => none

/-- two contexts agree except possibly in one field -/
structure AgreeExcept (f : Field) (c c' : Ctx δ ρ) : Prop where
  k : f ≠ .k → c'.k = c.k
  epsilon : f ≠ .epsilon → c'.epsilon = c.epsilon
  objective : f ≠ .objective → c'.objective = c.objective
  numVcycles : f ≠ .numVcycles → c'.numVcycles = c.numVcycles
  logging : f ≠ .logging → c'.enableLogging = c.enableLogging ∧ c'.verboseLogging = c.verboseLogging
  preset : c'.preset = c.preset
  individual : c'.individual = c.individual
  maxWeights : c'.maxWeights = c.maxWeights
  rest : c'.rest = c.rest

/-- the accepted strings and the value a parameter gets -/
def Accepts (L : Lib δ) (value : List Char) : Param → Ctx δ ρ → Prop
  | .numBlocks, c' => ∃ d, L.stod value = some d ∧ c'.k = L.toInt d
  | .epsilon, c' => L.stod value = some c'.epsilon
  | .numVcycles, c' => ∃ d, L.stod value = some d ∧ c'.numVcycles = L.toSize d
  | .objective, c' => (value = "cut".toList ∧ c'.objective = .cut) ∨ (value = "km1".toList ∧ c'.objective = .km1) ∨
      (value = "soed".toList ∧ c'.objective = .soed)
  | .verbose, c' => ∃ b, c'.enableLogging = b ∧ c'.verboseLogging = b ∧
      value.map lower ∈ (if b then ["t".toList, "y".toList, "1".toList, "true".toList, "yes".toList]
        else ["f".toList, "n".toList, "0".toList, "false".toList, "no".toList])
  | .other, _ => False

theorem stringToBool_some {s : List Char} {b : Bool} : stringToBool s = some b ↔
    s.map lower ∈ (if b then ["t".toList, "y".toList, "1".toList, "true".toList, "yes".toList]
        else ["f".toList, "n".toList, "0".toList, "false".toList, "no".toList]) := by
  have e1 : "true".toList = ['t', 'r', 'u', 'e'] := by decide +kernel
  have e2 : "false".toList = ['f', 'a', 'l', 's', 'e'] := by decide +kernel
  have e3 : "yes".toList = ['y', 'e', 's'] := by decide +kernel
  have e4 : "no".toList = ['n', 'o'] := by decide +kernel
  have e5 : "t".toList = ['t'] := by decide +kernel
  have e6 : "y".toList = ['y'] := by decide +kernel
  have e7 : "1".toList = ['1'] := by decide +kernel
  have e8 : "f".toList = ['f'] := by decide +kernel
  have e9 : "n".toList = ['n'] := by decide +kernel
  have e10 : "0".toList = ['0'] := by decide +kernel
  unfold stringToBool
  simp only [e1, e2, e3, e4, e5, e6, e7, e8, e9, e10]
  generalize s.map lower = v
  cases b with
  | true =>
    simp only [if_true, List.mem_cons, List.not_mem_nil, or_false]
    constructor
    · intro h
      split at h
      · assumption
      · split at h <;> simp at h
    · intro h; rw [if_pos h]
  | false =>
    simp only [Bool.false_eq_true, if_false, List.mem_cons, List.not_mem_nil, or_false]
    constructor
    · intro h
      split at h
      · simp at h
      · split at h
        · assumption
        · simp at h
    · intro h
      rw [if_neg, if_pos h]
      rintro (h' | h' | h' | h' | h') <;> subst h' <;> simp at h

/-- A call either succeeds, gives the named parameter the value denoted by the string and leaves everything else as it
was, or it returns `INVALID_PARAMETER` and changes nothing. -/
theorem C34_set_parameter (L : Lib δ) (c : Ctx δ ρ) (type : Param) (value : List Char) :
    ((setParameter L c type value).1 = .success ∧ Accepts L value type (setParameter L c type value).2 ∧
      ∃ f, type.field = some f ∧ AgreeExcept f c (setParameter L c type value).2) ∨
    ((setParameter L c type value).1 = .invalidParameter ∧ (setParameter L c type value).2 = c) := by
  cases type with
  | numBlocks =>
    simp only [setParameter]
    cases h : L.stod value with
    | none => right; exact ⟨rfl, rfl⟩
    | some d => left; exact ⟨rfl, ⟨d, h, rfl⟩, _, rfl, by constructor <;> simp⟩
  | epsilon =>
    simp only [setParameter]
    cases h : L.stod value with
    | none => right; exact ⟨rfl, rfl⟩
    | some d => left; exact ⟨rfl, h, _, rfl, by constructor <;> simp⟩
  | numVcycles =>
    simp only [setParameter]
    cases h : L.stod value with
    | none => right; exact ⟨rfl, rfl⟩
    | some d => left; exact ⟨rfl, ⟨d, h, rfl⟩, _, rfl, by constructor <;> simp⟩
  | objective =>
    simp only [setParameter]
    split
    · rename_i h; left; subst h; exact ⟨rfl, Or.inr (Or.inl ⟨by decide +kernel, rfl⟩), _, rfl, by constructor <;> simp⟩
    · split
      · rename_i h; left; subst h; exact ⟨rfl, Or.inl ⟨by decide +kernel, rfl⟩, _, rfl, by constructor <;> simp⟩
      · split
        · rename_i h; left; subst h; exact ⟨rfl, Or.inr (Or.inr ⟨by decide +kernel, rfl⟩), _, rfl, by constructor <;> simp⟩
        · right; exact ⟨rfl, rfl⟩
  | verbose =>
    simp only [setParameter]
    cases h : stringToBool value with
    | none => right; exact ⟨rfl, rfl⟩
    | some b => left; exact ⟨rfl, ⟨b, rfl, rfl, stringToBool_some.1 h⟩, _, rfl, by constructor <;> simp⟩
  | other => right; exact ⟨rfl, rfl⟩

/-- every accepted string is accepted -/
theorem C34_set_parameter_complete (L : Lib δ) (c c' : Ctx δ ρ) (type : Param) (value : List Char) (h : Accepts L value type c') :
    (setParameter L c type value).1 = .success := by
  cases type with
  | numBlocks => obtain ⟨d, h, -⟩ := h; simp [setParameter, h]
  | epsilon => have h : L.stod value = some c'.epsilon := h; simp [setParameter, h]
  | numVcycles => obtain ⟨d, h, -⟩ := h; simp [setParameter, h]
  | objective =>
    have e1 : "cut".toList = ['c', 'u', 't'] := by decide +kernel
    have e2 : "km1".toList = ['k', 'm', '1'] := by decide +kernel
    have e3 : "soed".toList = ['s', 'o', 'e', 'd'] := by decide +kernel
    rcases h with ⟨h, -⟩ | ⟨h, -⟩ | ⟨h, -⟩ <;> subst h
    · rw [e1]; simp [setParameter]
    · rw [e2]; simp [setParameter]
    · rw [e3]; simp [setParameter]
  | verbose =>
    obtain ⟨b, -, -, h⟩ := h
    simp [setParameter, stringToBool_some.2 h]
  | other => exact h.elim

/-- A string that `std::stod` accepts — it reads the longest prefix that is a number — is accepted as a number of
blocks, even though "positive integer" is documented: fractions are cut off, negative numbers and trailing text are
accepted. -/
theorem C34_number_of_blocks_unchecked (L : Lib δ) (c : Ctx δ ρ) (value : List Char) (d : δ) (h : L.stod value = some d) :
    setParameter L c .numBlocks value = (.success, { c with k := L.toInt d }) := by
  simp [setParameter, h]

/-- The partitioning parameters that are set are the ones that are read, nothing else changes. -/
theorem C34_set_partitioning (c : Ctx δ ρ) (k : Int) (eps : δ) (o : CObj) :
    (setPartitioning c k eps o).k = k ∧ (setPartitioning c k eps o).epsilon = eps ∧ getObjective (setPartitioning c k eps o) = o ∧
    (setPartitioning c k eps o).preset = c.preset ∧ (setPartitioning c k eps o).numVcycles = c.numVcycles ∧
    (setPartitioning c k eps o).maxWeights = c.maxWeights ∧ (setPartitioning c k eps o).individual = c.individual ∧
    (setPartitioning c k eps o).enableLogging = c.enableLogging ∧ (setPartitioning c k eps o).rest = c.rest := by
  cases o <;> simp [setPartitioning, getObjective]

/-- A context for the Steiner tree objective, and one without objective, reports `CUT`. -/
theorem C34_get_objective_default (c : Ctx δ ρ) (h : c.objective = .steinerTree ∨ c.objective = .undefined) : getObjective c = .cut := by
  rcases h with h | h <;> simp [getObjective, h]

/-- The individual block weights are stored as given. -/
theorem C34_individual_weights (c : Ctx δ ρ) (n : Nat) (w : Nat → Int) :
    (setIndividual c n w).individual = true ∧ (setIndividual c n w).maxWeights = (List.range n).map w ∧
    (setIndividual c n w).k = c.k := by
  refine ⟨rfl, ?_, rfl⟩
  show (List.range n).foldl (fun (m : List Int) i => m.set i (w i)) (List.replicate n 0) = _
  have key : ∀ j ≤ n, (List.range j).foldl (fun (m : List Int) i => m.set i (w i)) (List.replicate n 0) =
      (List.range j).map w ++ List.replicate (n - j) 0 := by
    intro j
    induction j with
    | zero => intro _; simp
    | succ j ih =>
      intro hj
      rw [List.range_succ, List.foldl_append, ih (by omega)]
      simp only [List.foldl_cons, List.foldl_nil, List.map_append, List.map_cons, List.map_nil]
      have : List.replicate (n - j) (0 : Int) = 0 :: List.replicate (n - (j + 1)) 0 := by
        have : n - j = (n - (j + 1)) + 1 := by omega
        rw [this, List.replicate_succ]
      rw [this, List.set_append_right _ _ (by simp)]
      simp
  have := key n (Nat.le_refl n)
  simpa using this

/-- A context created from a preset reports that preset. -/
theorem C34_preset_roundtrip (init : Ctx δ ρ) (opts : Preset → ρ → ρ) (p : CPreset) :
    ∃ c, contextFromPreset init opts p = some c ∧ fromPreset c.preset = p ∧ presetC c.preset = p ∧ c.k = init.k ∧
      c.epsilon = init.epsilon ∧ c.objective = init.objective ∧ c.enableLogging = false := by
  have key : ∃ q', (presetOption (toPreset p)).bind presetFromString = some q' ∧ fromPreset q' = p ∧ presetC q' = p := by
    cases p
    · exact ⟨.deterministic, by decide +kernel, rfl, rfl⟩
    · exact ⟨.deterministicQuality, by decide +kernel, rfl, rfl⟩
    · exact ⟨.largeK, by decide +kernel, rfl, rfl⟩
    · exact ⟨.default, by decide +kernel, rfl, rfl⟩
    · exact ⟨.quality, by decide +kernel, rfl, rfl⟩
    · exact ⟨.highestQuality, by decide +kernel, rfl, rfl⟩
  obtain ⟨q', h, h1, h2⟩ := key
  obtain ⟨s, hs, hq⟩ := Option.bind_eq_some_iff.1 h
  refine ⟨{ init with preset := q', enableLogging := false, rest := opts (toPreset p) init.rest }, ?_, h1, h2, rfl, rfl, rfl, rfl⟩
  simp only [contextFromPreset, hs, hq, Option.bind_some, Option.map_some]

/-- A context without preset reports `DETERMINISTIC`. -/
theorem C34_undefined_preset : fromPreset .undefined = .deterministic := rfl

/-! ### Compatibility -/

/-- a hypergraph type fits a preset: the n-level preset needs the dynamic, all others the static data structures -/
def Fits (t : HgType) (p : CPreset) : Prop :=
  match t with
  | .dynamicGraph | .dynamicHypergraph => p = .highestQuality
  | .staticGraph | .staticHypergraph => p ≠ .highestQuality
  | .null => False

theorem isCompatible_iff (t : HgType) (p : CPreset) : isCompatible t p = true ↔ Fits t p := by
  cases t <;> cases p <;> simp [isCompatible, Fits]

/-- Hypergraphs created or read with a context fit the preset of this context, and the presets they fit are exactly
those of the same kind. -/
theorem C34_created_compatible (c : Ctx δ ρ) (inst : Instance) (hi : inst ≠ .undefined) (hp : c.preset ≠ .undefined) :
    ∃ t, createHg c inst = .ok t ∧ readHg c inst = .ok t ∧ instanceOf t = inst ∧
      ∀ p, isCompatible t p = true ↔ (p = .highestQuality ↔ c.preset = .highestQuality) := by
  unfold createHg readHg
  cases hc : c.preset <;> cases inst <;> simp_all [toHgType, instanceOf, isCompatible] <;> intro p <;> cases p <;> simp

/-- Partitioning refuses every hypergraph that does not fit the preset of the context, and reports missing parameters;
otherwise the dispatch reaches the algorithm with the matching data structure (no cast fails), and the resulting partition
is of the type that improving it with the same context expects. -/
theorem C34_partition_dispatch [DecidableEq δ] (maxEps : δ) (F : Features) (c : Ctx δ ρ) (t : HgType) :
    (¬ Fits t (presetC c.preset) → partitionImpl maxEps F c t = .error .unsupportedOperation) ∧
    (Fits t (presetC c.preset) → unset maxEps c = true → partitionImpl maxEps F c t = .error .invalidInput) ∧
    (Fits t (presetC c.preset) → unset maxEps c = false →
      ∃ ty, ty = toPhgType c.preset (instanceOf t) ∧ hgOf ty = t ∧ ty ≠ .null ∧
        (enabled F ty = false → partitionImpl maxEps F c t = .error .invalidParameter) ∧
        (enabled F ty = true → partitionImpl maxEps F c t = .ok ty ∧ improveImpl maxEps F c ty = .ok ())) := by
  refine ⟨?_, ?_, ?_⟩
  · intro h
    have : isCompatible t (presetC c.preset) = false := by
      rw [← Bool.not_eq_true, isCompatible_iff]; exact h
    simp [partitionImpl, this]
  · intro h hu
    simp [partitionImpl, (isCompatible_iff _ _).2 h, hu]
  · intro h hu
    have hpre : c.preset ≠ .undefined := by
      intro hp
      simp [unset, hp] at hu
    refine ⟨_, rfl, ?_⟩
    simp only [partitionImpl, (isCompatible_iff _ _).2 h, hu, improveImpl, Bool.not_true, Bool.false_eq_true, if_false]
    revert h hpre
    cases c.preset <;> cases t <;> simp [Fits, presetC, toPhgType, instanceOf, hgOf, facade, cast, castP, isCompatibleP, instanceOfP, Except.map] <;>
      (constructor <;> intro h <;> simp [h])

/-- Improving refuses every partition that does not belong to the preset of the context; otherwise no cast fails. -/
theorem C34_improve_dispatch [DecidableEq δ] (maxEps : δ) (F : Features) (c : Ctx δ ρ) (t : PhgType) (hu : unset maxEps c = false) :
    (improveImpl maxEps F c t = .ok () ↔ (t ≠ .null ∧ t = toPhgType c.preset (instanceOfP t) ∧ enabled F t = true)) ∧
    (t = .null ∨ t ≠ toPhgType c.preset (instanceOfP t) → improveImpl maxEps F c t = .error .unsupportedOperation) := by
  have hpre : c.preset ≠ .undefined := by
    intro hp
    simp [unset, hp] at hu
  simp only [improveImpl, hu]
  revert hpre
  cases c.preset <;> cases t <;> simp [presetC, toPhgType, castP, isCompatibleP, instanceOfP] <;>
    (try (split <;> simp_all)) <;> simp_all

/-- Mapping is refused if the number of blocks of the context differs from the target graph. -/
theorem C34_map_blocks [DecidableEq δ] (maxEps : δ) (F : Features) (c : Ctx δ ρ) (blocks : Int) (t : HgType) :
    (blocks ≠ c.k → mapImpl maxEps F c blocks t = .error .invalidInput) ∧
    (blocks = c.k → mapImpl maxEps F c blocks t = partitionImpl maxEps F { c with objective := .steinerTree } t) := by
  constructor <;> intro h <;> simp [mapImpl, h]

/-- Creating a partition from given block ids fails if the hypergraph does not fit the preset and otherwise yields the
type that improving with the same context expects. -/
theorem C34_create_partition (c : Ctx δ ρ) (t : HgType) (hp : c.preset ≠ .undefined) :
    (Fits t (presetC c.preset) → createPhg c t = .ok (toPhgType c.preset (instanceOf t)) ∧ isCompatibleP (toPhgType c.preset (instanceOf t)) (presetC c.preset) = true) ∧
    (¬ Fits t (presetC c.preset) → createPhg c t = .error .invalidInput) := by
  revert hp
  cases hc : c.preset <;> cases t <;>
    simp [hc, createPhg, Fits, presetC, toPhgType, instanceOf, cast, isCompatibleP, Except.map]

/-- The block check of the checked interface accepts negative block ids. -/
theorem C34_negative_block_accepted (k block : Int) (hk : 0 < k) (hb : block < 0) : blockValid k block = true := by
  simp [blockValid]; omega

/-! ### Concrete cases -/

def exLib : Lib Int where
  stod s := if s = "2.9".toList then some 2 else if s = "-3".toList then some (-3) else none
  toInt d := d
  toSize d := d.toNat

def exCtx : Ctx Int Nat := ⟨2147483647, 1000, .undefined, 0, true, false, .undefined, false, [], 7⟩

example : (setParameter exLib exCtx .numBlocks "-3".toList).1 = .success ∧ (setParameter exLib exCtx .numBlocks "-3".toList).2.k = -3 ∧
    (setParameter exLib exCtx .verbose "YeS".toList).2.verboseLogging = true ∧
    (setParameter exLib exCtx .objective "km2".toList).1 = .invalidParameter := by decide +kernel

example : ∃ c, contextFromPreset exCtx (fun _ r => r) .quality = some c ∧
    partitionImpl 1000 ⟨true, true, true⟩ (setPartitioning c 4 3 .km1) .staticHypergraph = .ok .multilevelHypergraph ∧
    partitionImpl 1000 ⟨true, true, true⟩ (setPartitioning c 4 3 .km1) .dynamicHypergraph = .error .unsupportedOperation ∧
    partitionImpl 1000 ⟨true, true, true⟩ c .staticHypergraph = .error .invalidInput :=
  ⟨_, rfl, rfl, rfl, rfl⟩

end Api
end Verif
