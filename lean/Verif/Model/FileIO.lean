import Verif.Model.Factory
/-!
# Model: reading hypergraph, graph and partition files

Sources: `mt-kahypar/io/io_utils.h`, `mt-kahypar/io/hypergraph_io.cpp`.

A file is its list of characters; it is mapped to memory in whole pages, the bytes behind the end of the file in the
last page are zero, and reading behind the last page is a memory fault.  Line numbers (used only in error messages) and
the texts of the messages are left out.  `diverge` marks an exhausted iteration bound (shown not to occur for the
files considered).
-/
namespace Verif
namespace FileIO
open SMap (wr)

/-- outcome of a failed read: `InvalidInputException`, access outside the mapping, or iteration bound exhausted -/
inductive Err where
  | parse | fault | diverge
  deriving DecidableEq

abbrev M (α : Type) := Except Err α

/-- a file mapped with the given page size (`mmap_file`, io_utils.h:81-133) -/
structure File where
  bytes : List Char
  page : Nat

def File.length (f : File) : Nat := f.bytes.length
/-- number of accessible bytes: the length rounded up to whole pages -/
def File.mapped (f : File) : Nat := (f.length + f.page - 1) / f.page * f.page

/-- `mapped_file[pos]` -/
def rd (f : File) (pos : Nat) : M Char :=
  if pos < f.length then .ok (f.bytes.getD pos '\x00')
  else if pos < f.mapped then .ok '\x00'
  else .error .fault

/-- `is_line_ending` (io_utils.h:151-153) -/
def isEol (c : Char) : Bool := c = '\r' || c = '\n' || c = '\x00'

/-- `do_line_ending` (io_utils.h:156-171): the new position -/
def doLineEnding (f : File) (pos : Nat) : M Nat := do
  let c ← rd f pos
  if !isEol c then .error .parse
  else if c ≠ '\x00' then
    if c = '\r' then do
      let c2 ← rd f (pos + 1)
      if c2 ≠ '\n' then .error .parse else .ok (pos + 2)
    else .ok (pos + 1)
  else .ok pos

/-- `goto_next_line` (io_utils.h:174-183) -/
def gotoNextLine (f : File) : Nat → Nat → M Nat
  | 0, _ => .error .diverge
  | fuel + 1, pos => do
    let c ← rd f pos
    if isEol c then doLineEnding f pos else gotoNextLine f fuel (pos + 1)

/-- the loops `while ( mapped_file[pos] == '%' ) goto_next_line(...)` -/
def skipComments (f : File) : Nat → Nat → M Nat
  | 0, _ => .error .diverge
  | fuel + 1, pos => do
    let c ← rd f pos
    if c = '%' then do
      let pos ← gotoNextLine f (f.length + 1) pos
      skipComments f fuel pos
    else .ok pos

/-- `goto_next_line_unchecked` (io_utils.h:186-198): behind the next newline or the end of the file -/
def nextLineUnchecked (f : File) (pos : Nat) : Nat :=
  match (f.bytes.drop pos).findIdx? (· = '\n') with
  | some off => pos + (off + 1)
  | none => f.length

/-- `while ( mapped_file[pos] == ' ' ) ++pos` -/
def skipSpaces (f : File) : Nat → Nat → M Nat
  | 0, _ => .error .diverge
  | fuel + 1, pos => do
    let c ← rd f pos
    if c = ' ' then skipSpaces f fuel (pos + 1) else .ok pos

/-- the digit loop of `read_number` (io_utils.h:211-238); `max` is the largest value of the result type, `fin` the
argument `length`.  The exception for an overflow is thrown without collecting the message. -/
def digits (f : File) (max fin : Nat) : Nat → Nat → Nat → M (Nat × Nat)
  | 0, _, _ => .error .diverge
  | fuel + 1, pos, number =>
    if pos < fin then do
      let c ← rd f pos
      if c = ' ' || isEol c then do
        let pos ← skipSpaces f (f.length + 1) pos
        .ok (number, pos)
      else if c < '0' || c > '9' then .error .parse
      else
        let d := c.toNat - '0'.toNat
        if number > (max - d) / 10 then .error .parse
        else digits f max fin fuel (pos + 1) (number * 10 + d)
    else .ok (number, pos)

/-- `read_number` (io_utils.h:200-240) -/
def readNumber (f : File) (max fin pos : Nat) : M (Nat × Nat) := do
  let pos ← skipSpaces f (f.length + 1) pos
  let c ← rd f pos
  if isEol c then .error .parse
  else digits f max fin (f.length + 1) pos 0

/-- largest `HypernodeID`, `HyperedgeID`, `uint32_t` -/
def maxU32 : Nat := 4294967295
/-- largest `HypernodeWeight`, `HyperedgeWeight` -/
def maxI32 : Nat := 2147483647

/-! ### Splitting into ranges of lines -/

/-- comment loop in `split_lines` (io_utils.h:274-276) -/
def splitSkip (f : File) : Nat → Nat → M Nat
  | 0, _ => .error .diverge
  | fuel + 1, pos => do
    let c ← rd f pos
    if c = '%' && decide (pos < f.length) then splitSkip f fuel (nextLineUnchecked f pos) else .ok pos

/-- the loop of `split_lines` (io_utils.h:270-283): line positions found so far, in order -/
def splitLoop (f : File) (expected : Nat) : Nat → Nat → List Nat → M (Nat × List Nat)
  | 0, _, _ => .error .diverge
  | fuel + 1, pos, ls => do
    let pos ← splitSkip f (f.length + 1) pos
    if ls.length > expected || decide (pos ≥ f.length) then .ok (pos, ls)
    else
      let pos := nextLineUnchecked f pos
      splitLoop f expected fuel pos (ls ++ [pos])

/-- `LineRange` (io_utils.h:242-248) without the line number -/
structure LineRange where
  start : Nat
  fin : Nat
  first : Nat
  num : Nat
  deriving DecidableEq

/-- the inner `do … while` loop (io_utils.h:306-309) -/
def rangeEnd (ls : List Nat) (bytes startPos : Nat) : Nat → Nat → Nat
  | 0, i => i
  | fuel + 1, i =>
    let i := i + 1
    if i + 1 < ls.length && decide (ls.getD i 0 - startPos < bytes) then rangeEnd ls bytes startPos fuel i else i

/-- the range loop (io_utils.h:301-314) -/
def rangeLoop (ls : List Nat) (bytes : Nat) : Nat → Nat → List LineRange
  | 0, _ => []
  | fuel + 1, i =>
    if i + 1 < ls.length then
      let j := rangeEnd ls bytes (ls.getD i 0) ls.length i
      let delta := ls.getD j 0 - ls.getD i 0
      (if delta > 0 then [⟨ls.getD i 0, ls.getD i 0 + delta, i, j - i⟩] else []) ++ rangeLoop ls bytes fuel j
    else []

/-- `split_lines` (io_utils.h:262-318); `R` is `num_parallel_ranges()`: twice the number of hardware threads -/
def splitLines (f : File) (R pos expected : Nat) : M (Nat × List LineRange) := do
  let initial := pos
  let (pos, ls) ← splitLoop f expected (f.length + 2) pos [pos]
  let ls ← (if ls.length < expected + 1 then do
      let c ← rd f (pos - 1)
      .ok (if c = '\n' then ls ++ [pos] else ls)
    else .ok ls : M (List Nat))
  if ls.length < expected + 1 then .error .parse
  else
    let bytes := (pos - initial) / R + 1
    .ok (pos, rangeLoop ls bytes ls.length 0)

/-! ### Copying to a global list -/

/-- writes of one iteration of `copy_to_global_list` (io_utils.h:330-338) into `target` of the given size -/
def copyOne {α : Type} (size start : Nat) (t : Nat → α) (l : List α) : Nat → α :=
  (List.range l.length).foldl (fun t j => if start + j < min (start + l.length) size then
    (match l[j]? with | some x => wr t (start + j) x | none => t) else t) t

/-- `copy_to_global_list` (io_utils.h:320-340): the iterations of the parallel loop in the order `ord` -/
def copyToGlobal {α : Type} (source : List (List α)) (size : Nat) (t : Nat → α) (ord : List Nat) : (Nat → α) × Nat :=
  (ord.foldl (fun t i => copyOne size ((source.take i).map List.length).sum t (source.getD i [])) t,
    (source.map List.length).sum)

/-! ### hMetis -/

/-- `readFormatInfo` (hypergraph_io.cpp:47-69): (has edge weights, has vertex weights, position) -/
def readFormat (f : File) (pos : Nat) : M (Bool × Bool × Nat) := do
  let c ← rd f pos
  if !isEol c then do
    let (num, pos) ← readNumber f maxU32 f.length pos
    if num ≥ 100 then .error .parse
    else if !((num / 10 = 0 || num / 10 = 1) && (num % 10 = 0 || num % 10 = 1)) then .error .parse
    else .ok (num % 10 = 1, num / 10 = 1, pos)
  else .ok (false, false, pos)

/-- `readHGRHeader` (hypergraph_io.cpp:71-89) / `readMetisHeader` (lines 292-310): the two numbers in the order of the
file, the weight flags and the position -/
def readHeader (f : File) : M (Nat × Nat × Bool × Bool × Nat) := do
  let pos ← skipComments f (f.length + 1) 0
  let (a, pos) ← readNumber f maxU32 f.length pos
  let (b, pos) ← readNumber f maxU32 f.length pos
  let (ew, vw, pos) ← readFormat f pos
  let pos ← doLineEnding f pos
  .ok (a, b, ew, vw, pos)

/-- pins of a hyperedge line (hypergraph_io.cpp:157-167) -/
def readPins (f : File) (n fin : Nat) : Nat → Nat → List Nat → M (List Nat × Nat)
  | 0, _, _ => .error .diverge
  | fuel + 1, pos, acc => do
    let c ← rd f pos
    if isEol c then .ok (acc, pos)
    else do
      let (pin, pos) ← readNumber f maxU32 fin pos
      if pin = 0 then .error .parse
      else if pin > n then .error .parse
      else readPins f n fin fuel pos (acc ++ [pin - 1])

/-- one hyperedge line without its line ending (hypergraph_io.cpp:150-173): weight, pins without duplicates -/
def readHyperedge (f : File) (n : Nat) (hasW : Bool) (fin pos : Nat) : M ((Nat × List Nat) × Nat) := do
  let (w, pos) ← (if hasW then readNumber f maxI32 fin pos else .ok (0, pos))
  let (pins, pos) ← readPins f n fin (f.length + 1) pos []
  let pos ← doLineEnding f pos
  if pins = [] then .error .parse
  else .ok ((w, Factory.dedupPins pins), pos)

/-- the loop over the lines of one range (hypergraph_io.cpp:143-186, 366-402): `line id fin pos` reads one line -/
def readRange {α : Type} (f : File) (line : Nat → Nat → Nat → M (α × Nat)) (fin : Nat) : Nat → Nat → Nat → M (List α)
  | 0, _, _ => .ok []
  | cnt + 1, id, pos => do
    let pos ← skipComments f (f.length + 1) pos
    let (x, pos) ← line id fin pos
    let xs ← readRange f line fin cnt (id + 1) pos
    .ok (x :: xs)

/-- all ranges; the lists of the ranges in order (an exception in any of them ends the reading).
`local_edges` has `R` entries, writing behind them is a fault. -/
def readRanges {α : Type} (f : File) (R : Nat) (line : Nat → Nat → Nat → M (α × Nat)) (rs : List LineRange) : M (List (List α)) :=
  if rs.length > R then .error .fault
  else rs.mapM (fun r => readRange f line r.fin r.num r.first r.start)

/-- `readHypernodeWeights` (hypergraph_io.cpp:222-241), the loop -/
def readWeights (f : File) : Nat → Nat → M (List Nat × Nat)
  | 0, pos => .ok ([], pos)
  | n + 1, pos =>
    if pos ≥ f.length then .error .parse
    else do
      let (w, pos) ← readNumber f maxI32 f.length pos
      let pos ← doLineEnding f pos
      let (ws, pos) ← readWeights f n pos
      .ok (w :: ws, pos)

/-- what `readHypergraphFile` returns -/
structure HgrResult where
  numHyperedges : Nat
  numNodes : Nat
  numRemoved : Nat
  hyperedges : List (List Nat)
  edgeWeights : Option (List Nat)
  nodeWeights : Option (List Nat)
  deriving DecidableEq

/-- what a range keeps (hypergraph_io.cpp:178-185) -/
def kept (remove : Bool) (l : List (Nat × List Nat)) : List (Nat × List Nat) := l.filter (fun x => !remove || decide (x.2.length > 1))

/-- `readHypergraphFile` (hypergraph_io.cpp:244-290) with `readHyperedges` (lines 110-220).  `ord` are the orders of the
parallel copy loops. -/
def readHypergraph (f : File) (R : Nat) (ord : Nat → List Nat) (remove : Bool) : M HgrResult := do
  let (m, n, ew, vw, pos) ← readHeader f
  let (pos, rs) ← splitLines f R pos m
  let loc ← readRanges f R (fun _ fin pos => readHyperedge f n ew fin pos) rs
  let removed := (loc.map (fun l => l.length - (kept remove l).length)).sum
  -- `local_edges` has `R` entries, the unused ones are empty
  let src := loc.map (fun l => (kept remove l).map (·.2)) ++ List.replicate (R - rs.length) []
  let srcW := loc.map (fun l => (kept remove l).map (·.1)) ++ List.replicate (R - rs.length) []
  let size := m - removed
  let es := (List.range size).map (copyToGlobal src size (fun _ => []) (ord 0)).1
  let ws := if ew then some ((List.range size).map (copyToGlobal srcW size (fun _ => 0) (ord 1)).1) else none
  let (vws, pos) ← (if vw then do
      let (l, pos) ← readWeights f n pos
      .ok (some l, pos)
    else .ok (none, pos) : M (Option (List Nat) × Nat))
  let pos ← skipComments f (f.length + 1) pos
  if pos ≠ f.length then .error .parse
  else .ok ⟨size, n, removed, es, ws, vws⟩

/-! ### Metis -/

/-- neighbours of a vertex (hypergraph_io.cpp:379-402): forward edges with their weights -/
def readNeighbors (f : File) (n id : Nat) (ew : Bool) (fin : Nat) : Nat → Nat → List (Nat × Nat × Nat) → M (List (Nat × Nat × Nat) × Nat)
  | 0, _, _ => .error .diverge
  | fuel + 1, pos, acc => do
    let c ← rd f pos
    if isEol c then .ok (acc, pos)
    else do
      let (target, pos) ← readNumber f maxU32 fin pos
      if target = 0 then .error .parse
      else if target > n then .error .parse
      else do
        let (w, pos) ← (if ew then readNumber f maxI32 fin pos else .ok (0, pos))
        readNeighbors f n id ew fin fuel pos (if id < target - 1 then acc ++ [(id, target - 1, w)] else acc)

/-- one vertex line (hypergraph_io.cpp:373-405): weight and forward edges -/
def readVertex (f : File) (n : Nat) (ew vw : Bool) (id fin pos : Nat) : M ((Nat × Nat × List (Nat × Nat × Nat)) × Nat) := do
  let (w, pos) ← (if vw then readNumber f maxI32 fin pos else .ok (0, pos))
  let (es, pos) ← readNeighbors f n id ew fin (f.length + 1) pos []
  let pos ← doLineEnding f pos
  .ok ((id, w, es), pos)

structure MetisResult where
  numEdges : Nat
  numNodes : Nat
  edges : List (Nat × Nat)
  edgeWeights : Option (List Nat)
  nodeWeights : Option (List Nat)
  deriving DecidableEq

/-- `readGraphFile` (hypergraph_io.cpp:433-468) with `readVertices` (lines 321-431).  The vertex weights are written by
the range containing the vertex into the array with zeros. -/
def readGraph (f : File) (R : Nat) (ord : Nat → List Nat) : M MetisResult := do
  let (n, m, ew, vw, pos) ← readHeader f
  let (pos, rs) ← splitLines f R pos n
  let loc ← readRanges f R (fun id fin pos => readVertex f n ew vw id fin pos) rs
  let src := loc.map (fun l => (l.map (fun x => x.2.2.map (fun e => (e.1, e.2.1)))).flatten) ++ List.replicate (R - rs.length) []
  let srcW := loc.map (fun l => (l.map (fun x => x.2.2.map (fun e => e.2.2))).flatten) ++ List.replicate (R - rs.length) []
  let g := copyToGlobal src m (fun _ => (0, 0)) (ord 0)
  if g.2 ≠ m then .error .parse
  else do
    let ws := if ew then some ((List.range m).map (copyToGlobal srcW m (fun _ => 0) (ord 1)).1) else none
    let vws := if vw then some ((List.range n).map (loc.flatten.foldl (fun (t : Nat → Nat) x => wr t x.1 x.2.1) (fun _ => 0))) else none
    let pos ← skipComments f (f.length + 1) pos
    if pos ≠ f.length then .error .parse
    else .ok ⟨m, n, (List.range m).map g.1, ws, vws⟩

/-! ### Partition files -/

/-- `std::isspace` in the "C" locale -/
def isSpace (c : Char) : Bool := c = ' ' || c = '\t' || c = '\n' || c = '\x0b' || c = '\x0c' || c = '\r'

def isDigit (c : Char) : Bool := '0' ≤ c && c ≤ '9'

/-- value of a list of digits -/
def decVal (ds : List Char) : Nat := ds.foldl (fun a c => a * 10 + (c.toNat - '0'.toNat)) 0

/-- the optional sign of a number -/
def signOf (s : List Char) : Bool × List Char :=
  match s with
  | '-' :: t => (true, t)
  | '+' :: t => (false, t)
  | _ => (false, s)

/-- `file >> part` for an `int`: skip white space, optional sign, digits; fails without digits and if the
value does not fit -/
def readInt (s : List Char) : Option (Int × List Char) :=
  let s := s.dropWhile isSpace
  let (neg, s) := signOf s
  let ds := s.takeWhile isDigit
  if ds = [] then none
  else
    let v : Int := if neg then -(decVal ds : Int) else decVal ds
    if v < -2147483648 ∨ v > 2147483647 then none else some (v, s.dropWhile isDigit)

/-- the loop of `readPartitionFileImpl` (hypergraph_io.cpp:470-492); the fuel bounds the number of values
(every value takes at least one character) -/
def readPartLoop (numNodes : Nat) : Nat → List Char → List Int → M (List Int)
  | 0, _, _ => .error .diverge
  | fuel + 1, s, acc =>
    match readInt s with
    | some (v, s) => if acc.length ≥ numNodes then .error .parse else readPartLoop numNodes fuel s (acc ++ [v])
    | none => if acc.length < numNodes then .error .parse else .ok acc

def readPartition (numNodes : Nat) (s : List Char) : M (List Int) := readPartLoop numNodes (s.length + 1) s []

/-- `out_stream << part` -/
def showInt (v : Int) : List Char := if v < 0 then '-' :: Nat.toDigits 10 v.natAbs else Nat.toDigits 10 v.natAbs

/-- `writePartitionFile` (hypergraph_io.cpp:506-522): the array starts with -1, the nodes of the hypergraph overwrite
their entry, then one line per entry -/
def writePartition (n : Nat) (nodes : List Nat) (part : Nat → Int) : List Char :=
  let arr := nodes.foldl (fun (a : Nat → Int) v => wr a v (part v)) (fun _ => -1)
  ((List.range n).map (fun v => showInt (arr v) ++ ['\n'])).flatten

end FileIO
end Verif
