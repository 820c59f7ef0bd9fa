/-!
# Model: context and type handling of the library interface

Source: `lib/mtkahypar.cpp`, `include/lib_helper_functions.h`, `mt-kahypar/partition/conversion.cpp`,
`mt-kahypar/partition/partitioner_facade.cpp`, `mt-kahypar/utils/cast.h`, `mt-kahypar/io/presets.cpp`.
Strings are lists of characters, doubles an arbitrary type `δ` with the conversions of `Lib`.
The algorithm itself (`Partitioner::partition`) is not part of this model: only the dispatch is.
-/
namespace Verif
namespace Api

/-- `mt_kahypar_preset_type_t` (include/mtkahypartypes.h:116-129) -/
inductive CPreset where
  | deterministic | deterministicQuality | largeK | default | quality | highestQuality
  deriving DecidableEq

/-- `PresetType` (context_enum_classes.h) -/
inductive Preset where
  | deterministic | deterministicQuality | largeK | default | quality | highestQuality | undefined
  deriving DecidableEq

/-- `to_preset_type` (lib/mtkahypar.cpp:72-82) -/
def toPreset : CPreset → Preset
  | .deterministic => .deterministic
  | .deterministicQuality => .deterministicQuality
  | .largeK => .largeK
  | .default => .default
  | .quality => .quality
  | .highestQuality => .highestQuality

/-- `from_preset_type` (lib/mtkahypar.cpp:84-95); the value 0 is `DETERMINISTIC` -/
def fromPreset : Preset → CPreset
  | .deterministic => .deterministic
  | .deterministicQuality => .deterministicQuality
  | .largeK => .largeK
  | .default => .default
  | .quality => .quality
  | .highestQuality => .highestQuality
  | .undefined => .deterministic

/-- `get_preset_c_type` (lib_helper_functions.h) -/
def presetC : Preset → CPreset
  | .default => .default
  | .quality => .quality
  | .highestQuality => .highestQuality
  | .deterministic => .deterministic
  | .deterministicQuality => .deterministicQuality
  | .largeK => .largeK
  | .undefined => .default

/-- `Objective` (context_enum_classes.h) -/
inductive Obj where
  | cut | km1 | soed | steinerTree | undefined
  deriving DecidableEq

/-- `mt_kahypar_objective_t` (mtkahypartypes.h:107-111) -/
inductive CObj where
  | cut | km1 | soed
  deriving DecidableEq

/-- `mt_kahypar_status_t` (mtkahypartypes.h:26-38) -/
inductive Status where
  | success | invalidInput | invalidParameter | unsupportedOperation | systemError | otherError
  deriving DecidableEq

/-- `mt_kahypar_context_parameter_type_t` (mtkahypartypes.h:91-102); `other` is any value that is not an enumerator -/
inductive Param where
  | numBlocks | epsilon | objective | numVcycles | verbose | other
  deriving DecidableEq

/-- what is used of the standard library: `std::stod` (`none`: an exception) and the conversions of a double to
`PartitionID` and `size_t` (arbitrary where C++ leaves them undefined) -/
structure Lib (δ : Type) where
  stod : List Char → Option δ
  toInt : δ → Int
  toSize : δ → Nat

/-- the parameters of the context that the interface reads or writes; `rest` stands for all others -/
structure Ctx (δ ρ : Type) where
  k : Int
  epsilon : δ
  objective : Obj
  numVcycles : Nat
  enableLogging : Bool
  verboseLogging : Bool
  preset : Preset
  individual : Bool
  maxWeights : List Int
  rest : ρ

/-- `std::tolower` in the "C" locale -/
def lower (c : Char) : Char := if 'A' ≤ c ∧ c ≤ 'Z' then Char.ofNat (c.toNat + 32) else c

/-- `string_to_bool` (lib/mtkahypar.cpp:123-134) -/
def stringToBool (s : List Char) : Option Bool :=
  let v := s.map lower
  if v = ['t'] ∨ v = ['y'] ∨ v = ['1'] ∨ v = ['t', 'r', 'u', 'e'] ∨ v = ['y', 'e', 's'] then some true
  else if v = ['f'] ∨ v = ['n'] ∨ v = ['0'] ∨ v = ['f', 'a', 'l', 's', 'e'] ∨ v = ['n', 'o'] then some false
  else none

variable {δ ρ : Type}

/-- `mt_kahypar_set_context_parameter` (lib/mtkahypar.cpp:161-220) -/
def setParameter (L : Lib δ) (c : Ctx δ ρ) (type : Param) (value : List Char) : Status × Ctx δ ρ :=
  match type with
  | .numBlocks => match L.stod value with
    | some d => (.success, { c with k := L.toInt d })
    | none => (.invalidParameter, c)
  | .epsilon => match L.stod value with
    | some d => (.success, { c with epsilon := d })
    | none => (.invalidParameter, c)
  | .numVcycles => match L.stod value with
    | some d => (.success, { c with numVcycles := L.toSize d })
    | none => (.invalidParameter, c)
  | .objective =>
    if value = ['k', 'm', '1'] then (.success, { c with objective := .km1 })
    else if value = ['c', 'u', 't'] then (.success, { c with objective := .cut })
    else if value = ['s', 'o', 'e', 'd'] then (.success, { c with objective := .soed })
    else (.invalidParameter, c)
  | .verbose => match stringToBool value with
    | some b => (.success, { c with enableLogging := b, verboseLogging := b })
    | none => (.invalidParameter, c)
  | .other => (.invalidParameter, c)

/-- `mt_kahypar_set_partitioning_parameters` (lib/mtkahypar.cpp:222-238) -/
def setPartitioning (c : Ctx δ ρ) (k : Int) (eps : δ) (o : CObj) : Ctx δ ρ :=
  let c := { c with k := k, epsilon := eps }
  match o with
  | .cut => { c with objective := .cut }
  | .km1 => { c with objective := .km1 }
  | .soed => { c with objective := .soed }

/-- `mt_kahypar_get_objective` (lib/mtkahypar.cpp:252-266); the value 0 is `CUT` -/
def getObjective (c : Ctx δ ρ) : CObj :=
  match c.objective with
  | .cut => .cut
  | .km1 => .km1
  | .soed => .soed
  | .steinerTree => .cut
  | .undefined => .cut

/-- `set_individual_block_weights` (lib_helper_functions.h) -/
def setIndividual (c : Ctx δ ρ) (numBlocks : Nat) (w : Nat → Int) : Ctx δ ρ :=
  let m := (List.range numBlocks).foldl (fun (m : List Int) i => m.set i (w i)) (List.replicate numBlocks 0)
  { c with individual := true, maxWeights := m }

/-- `loadPreset` (io/presets.cpp:651-671): the option `preset-type` of every preset
(lines 52, 151, 261, 384, 476, 579), `none` for `UNDEFINED` -/
def presetOption : Preset → Option String
  | .deterministic => some "deterministic"
  | .deterministicQuality => some "deterministic_quality"
  | .largeK => some "large_k"
  | .default => some "default"
  | .quality => some "quality"
  | .highestQuality => some "highest_quality"
  | .undefined => none

/-- `presetTypeFromString` (context_enum_classes.cpp:301-317), `none`: exception -/
def presetFromString (s : String) : Option Preset :=
  if s = "deterministic" then some .deterministic
  else if s = "deterministic_quality" then some .deterministicQuality
  else if s = "large_k" then some .largeK
  else if s = "default" then some .default
  else if s = "quality" then some .quality
  else if s = "highest_quality" then some .highestQuality
  else none

/-- `mt_kahypar_context_from_preset` (lib/mtkahypar.cpp:156-159, `presetToContext` command_line_options.cpp:1241-1255):
`init` is the context after construction, `opts` sets the other options of the preset -/
def contextFromPreset (init : Ctx δ ρ) (opts : Preset → ρ → ρ) (p : CPreset) : Option (Ctx δ ρ) :=
  let q := toPreset p
  (presetOption q).bind fun s => (presetFromString s).map fun q' =>
    { init with preset := q', enableLogging := false, rest := opts q init.rest }

/-! ### Types of hypergraphs and partitions -/

/-- `mt_kahypar_hypergraph_type_t` (mtkahypartypes.h:6-12) -/
inductive HgType where
  | staticGraph | dynamicGraph | staticHypergraph | dynamicHypergraph | null
  deriving DecidableEq

/-- `mt_kahypar_partition_type_t` (mtkahypartypes.h:14-21) -/
inductive PhgType where
  | multilevelGraph | nlevelGraph | multilevelHypergraph | nlevelHypergraph | largeK | null
  deriving DecidableEq

inductive Instance where
  | graph | hypergraph | undefined
  deriving DecidableEq

/-- `is_compatible` for hypergraphs (lib_helper_functions.h) -/
def isCompatible (t : HgType) : CPreset → Bool
  | .highestQuality => t = .dynamicGraph || t = .dynamicHypergraph
  | _ => t = .staticGraph || t = .staticHypergraph

/-- `is_compatible` for partitions (lib_helper_functions.h) -/
def isCompatibleP (t : PhgType) : CPreset → Bool
  | .highestQuality => t = .nlevelGraph || t = .nlevelHypergraph
  | .largeK => t = .multilevelGraph || t = .largeK
  | _ => t = .multilevelGraph || t = .multilevelHypergraph

/-- `to_hypergraph_c_type` (conversion.cpp:35-63), `none`: exception `InvalidParameter` -/
def toHgType (p : Preset) : Instance → Option HgType
  | .hypergraph => match p with
    | .undefined => none
    | .highestQuality => some .dynamicHypergraph
    | _ => some .staticHypergraph
  | .graph => match p with
    | .undefined => none
    | .highestQuality => some .dynamicGraph
    | _ => some .staticGraph
  | .undefined => none

/-- `to_partition_c_type` (conversion.cpp:65-91) -/
def toPhgType (p : Preset) : Instance → PhgType
  | .graph => match p with
    | .undefined => .null
    | .highestQuality => .nlevelGraph
    | _ => .multilevelGraph
  | .hypergraph => match p with
    | .undefined => .null
    | .highestQuality => .nlevelHypergraph
    | .largeK => .largeK
    | _ => .multilevelHypergraph
  | .undefined => .null

/-- `get_instance_type` for hypergraphs -/
def instanceOf : HgType → Instance
  | .staticGraph => .graph
  | .dynamicGraph => .graph
  | .staticHypergraph => .hypergraph
  | .dynamicHypergraph => .hypergraph
  | .null => .undefined

/-- `get_instance_type` for partitions -/
def instanceOfP : PhgType → Instance
  | .multilevelGraph => .graph
  | .nlevelGraph => .graph
  | .multilevelHypergraph => .hypergraph
  | .nlevelHypergraph => .hypergraph
  | .largeK => .hypergraph
  | .null => .undefined

/-- type of the hypergraph inside a partition type (`TypeTraits`, definitions.h) -/
def hgOf : PhgType → HgType
  | .multilevelGraph => .staticGraph
  | .nlevelGraph => .dynamicGraph
  | .multilevelHypergraph => .staticHypergraph
  | .nlevelHypergraph => .dynamicHypergraph
  | .largeK => .staticHypergraph
  | .null => .null

/-- features compiled in (`KAHYPAR_ENABLE_..._FEATURES`) -/
structure Features where
  graphs : Bool
  highestQuality : Bool
  largeK : Bool

/-- `check_if_feature_is_enabled` (partitioner_facade.cpp:74-100): `false` if it throws -/
def enabled (F : Features) : PhgType → Bool
  | .multilevelGraph => F.graphs
  | .nlevelGraph => F.graphs && F.highestQuality
  | .multilevelHypergraph => true
  | .nlevelHypergraph => F.highestQuality
  | .largeK => F.largeK
  | .null => true

/-- result of a call that creates an object of type `α`: error status or the object -/
abbrev Res (α : Type) := Except Status α

/-- `utils::cast` (cast.h): `InvalidInputException` on mismatch -/
def cast (want have_ : HgType) : Res Unit := if want ≠ have_ then .error .invalidInput else .ok ()
def castP (want have_ : PhgType) : Res Unit := if want ≠ have_ then .error .invalidInput else .ok ()

/-- `mt_kahypar_create_hypergraph` / `mt_kahypar_create_graph` (dispatch on the preset, lib_helper_functions.h):
type of the created object -/
def createHg (c : Ctx δ ρ) (inst : Instance) : Res HgType :=
  match c.preset, inst with
  | .undefined, _ => .error .invalidParameter
  | .highestQuality, .graph => .ok .dynamicGraph
  | .highestQuality, _ => .ok .dynamicHypergraph
  | _, .graph => .ok .staticGraph
  | _, _ => .ok .staticHypergraph

/-- `readInputFile` (hypergraph_factory.cpp:184-200) -/
def readHg (c : Ctx δ ρ) (inst : Instance) : Res HgType :=
  match toHgType c.preset inst with
  | some t => .ok t
  | none => .error .invalidParameter

/-- limits that mean "not set" (context.h: `epsilon`, `k`) -/
def unset (maxEps : δ) [DecidableEq δ] (c : Ctx δ ρ) : Bool :=
  c.preset = .undefined || c.k = 2147483647 || c.epsilon = maxEps || c.objective = .undefined

/-- `PartitionerFacade::partition` (partitioner_facade.cpp:104-131): type of the result -/
def facade (F : Features) (p : Preset) (inst : Instance) (t : HgType) : Res PhgType :=
  let ty := toPhgType p inst
  if !enabled F ty then .error .invalidParameter
  else if ty = .null then .ok .null
  else (cast (hgOf ty) t).map fun _ => ty

/-- `partition_impl` (lib_helper_functions.h): type of the partition or error -/
def partitionImpl [DecidableEq δ] (maxEps : δ) (F : Features) (c : Ctx δ ρ) (t : HgType) : Res PhgType :=
  if !isCompatible t (presetC c.preset) then .error .unsupportedOperation
  else if unset maxEps c then .error .invalidInput
  else facade F c.preset (instanceOf t) t

/-- `improve_impl` and `PartitionerFacade::improve` (lib_helper_functions.h, partitioner_facade.cpp:134-163) -/
def improveImpl [DecidableEq δ] (maxEps : δ) (F : Features) (c : Ctx δ ρ) (t : PhgType) : Res Unit :=
  if !isCompatibleP t (presetC c.preset) then .error .unsupportedOperation
  else if unset maxEps c then .error .invalidInput
  else
    let ty := toPhgType c.preset (instanceOfP t)
    if !enabled F ty then .error .invalidParameter
    else if ty = .null then .ok ()
    else castP ty t

/-- `mt_kahypar_map` (lib_helper_functions.h `map`): `blocks` is the number of nodes of the target graph -/
def mapImpl [DecidableEq δ] (maxEps : δ) (F : Features) (c : Ctx δ ρ) (blocks : Int) (t : HgType) : Res PhgType :=
  if blocks ≠ c.k then .error .invalidInput
  else partitionImpl maxEps F { c with objective := .steinerTree } t

/-- `create_partitioned_hypergraph` (lib_helper_functions.h): type of the partition or error -/
def createPhg (c : Ctx δ ρ) (t : HgType) : Res PhgType :=
  if t = .staticGraph ∨ t = .dynamicGraph then
    match c.preset with
    | .undefined => .error .invalidParameter
    | .highestQuality => (cast .dynamicGraph t).map fun _ => .nlevelGraph
    | _ => (cast .staticGraph t).map fun _ => .multilevelGraph
  else
    match c.preset with
    | .undefined => .error .invalidParameter
    | .largeK => (cast .staticHypergraph t).map fun _ => .largeK
    | .highestQuality => (cast .dynamicHypergraph t).map fun _ => .nlevelHypergraph
    | _ => (cast .staticHypergraph t).map fun _ => .multilevelHypergraph

/-- `check_block_is_valid` (lib_generic_impls.h:140-148): `PartitionID` is signed -/
def blockValid (k block : Int) : Bool := !(decide (block ≥ k))

end Api
end Verif
