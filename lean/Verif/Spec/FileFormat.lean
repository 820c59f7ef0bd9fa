/-!
# Specification: text files

The hMetis and Metis file formats: what a file looks like that describes a given hypergraph or graph.  Comments may stand
before the header, before every hyperedge (vertex) line, after the last one and at the end; lines end with LF or CRLF, the
last line of the file may lack its line ending; numbers are separated by one or more spaces and may have leading zeros.
Independent of the reader.
-/
namespace Verif
namespace Text

/-- value of decimal digits -/
def value (ds : List Char) : Nat := ds.foldl (fun a c => a * 10 + (c.toNat - 48)) 0

/-- `ds` is a numeral for `n` -/
def Numeral (n : Nat) (ds : List Char) : Prop := ds ≠ [] ∧ (∀ c ∈ ds, '0' ≤ c ∧ c ≤ '9') ∧ value ds = n

/-- numbers separated by spaces, without leading spaces -/
inductive Toks : List Nat → List Char → Prop
  | nil : Toks [] []
  | cons {n ns ds b s} : Numeral n ds → (ns = [] ∨ 0 < b) → Toks ns s → Toks (n :: ns) (ds ++ List.replicate b ' ' ++ s)

/-- the content of a line with the given numbers; an empty line contains nothing -/
def Line (ns : List Nat) (s : List Char) : Prop :=
  ∃ a s', s = List.replicate a ' ' ++ s' ∧ Toks ns s' ∧ (ns = [] → a = 0)

/-- line ending -/
inductive Eol : List Char → Prop
  | lf : Eol ['\n']
  | crlf : Eol ['\r', '\n']

/-- the text of a comment behind the percent sign -/
def CommentBody (s : List Char) : Prop := ∀ c ∈ s, c ≠ '\r' ∧ c ≠ '\n' ∧ c ≠ '\x00'

/-- `s` is a sequence of comment lines followed by `t` -/
inductive Comments : List Char → List Char → Prop
  | nil (t) : Comments t t
  | cons {body e s t} : CommentBody body → Eol e → Comments s t → Comments ('%' :: (body ++ (e ++ s))) t

/-- `s` consists of lines with the given numbers, comments before each of them, followed by `t` -/
inductive Lines : List (List Nat) → List Char → List Char → Prop
  | nil (t) : Lines [] t t
  | cons {ns nss s l e s' t} : Comments s (l ++ (e ++ s')) → Line ns l → (Eol e ∨ (e = [] ∧ s' = [] ∧ nss = [])) →
      Lines nss s' t → Lines (ns :: nss) s t

/-- `s` consists of lines with one number each, without comments, followed by `t` -/
inductive Plain : List Nat → List Char → List Char → Prop
  | nil (t) : Plain [] t t
  | cons {w ws l e s' t} : Line [w] l → (Eol e ∨ (e = [] ∧ s' = [])) → Plain ws s' t → Plain (w :: ws) (l ++ (e ++ s')) t

/-- what may remain at the very end: nothing, or a comment without line ending -/
def End (s : List Char) : Prop := s = [] ∨ ∃ body, CommentBody body ∧ s = '%' :: body

/-- header line: two numbers and, if there are weights, the format number -/
def Header (a b : Nat) (ew vw : Bool) (l : List Char) : Prop :=
  Line [a, b, (if vw then 10 else 0) + (if ew then 1 else 0)] l ∨ (ew = false ∧ vw = false ∧ Line [a, b] l)

/-- a hypergraph as it is listed in a file: node ids start at 0 here, pins may be repeated -/
structure HgrDesc where
  n : Nat
  /-- weight (irrelevant without hyperedge weights) and pins -/
  edges : List (Nat × List Nat)
  ew : Bool
  vw : Option (List Nat)

structure HgrDesc.Valid (D : HgrDesc) : Prop where
  n : D.n < 2 ^ 32
  m : D.edges.length < 2 ^ 32
  pins : ∀ e ∈ D.edges, e.2 ≠ [] ∧ ∀ v ∈ e.2, v < D.n
  weights : D.ew = true → ∀ e ∈ D.edges, e.1 < 2 ^ 31
  vw : ∀ l, D.vw = some l → l.length = D.n ∧ ∀ w ∈ l, w < 2 ^ 31

/-- numbers in the line of a hyperedge -/
def HgrDesc.toks (D : HgrDesc) (e : Nat × List Nat) : List Nat := (if D.ew then [e.1] else []) ++ e.2.map (· + 1)

/-- `s` is an hMetis file for `D` -/
def HgrFile (D : HgrDesc) (s : List Char) : Prop :=
  ∃ l e s0 s1 s2 s3 s4, Comments s (l ++ (e ++ s0)) ∧ Header D.edges.length D.n D.ew D.vw.isSome l ∧
    (Eol e ∨ (e = [] ∧ s0 = [] ∧ D.edges = [])) ∧ Lines (D.edges.map D.toks) s0 s1 ∧ Comments s1 s2 ∧
    (match D.vw with
      | none => s3 = s2
      | some ws => Plain ws s2 s3) ∧ Comments s3 s4 ∧ End s4

/-- a graph as it is listed in a Metis file: per vertex its weight (irrelevant without vertex weights) and its neighbours
with the weight of the edge (irrelevant without edge weights), ids starting at 0 -/
structure MetisDesc where
  verts : List (Nat × List (Nat × Nat))
  ew : Bool
  vw : Bool

def MetisDesc.n (D : MetisDesc) : Nat := D.verts.length

/-- edges to larger neighbours of vertex `u` -/
def forward (u : Nat) (adj : List (Nat × Nat)) : List (Nat × Nat × Nat) := (adj.filter (fun x => u < x.1)).map (fun x => (u, x.1, x.2))

/-- the forward edges of the vertices `u, u + 1, …` -/
def forwards : Nat → List (Nat × List (Nat × Nat)) → List (Nat × Nat × Nat)
  | _, [] => []
  | u, v :: vs => forward u v.2 ++ forwards (u + 1) vs

structure MetisDesc.Valid (D : MetisDesc) : Prop where
  n : D.n < 2 ^ 32
  m : (forwards 0 D.verts).length < 2 ^ 32
  adj : ∀ v ∈ D.verts, ∀ x ∈ v.2, x.1 < D.n
  ew : D.ew = true → ∀ v ∈ D.verts, ∀ x ∈ v.2, x.2 < 2 ^ 31
  vw : D.vw = true → ∀ v ∈ D.verts, v.1 < 2 ^ 31

def MetisDesc.toks (D : MetisDesc) (v : Nat × List (Nat × Nat)) : List Nat :=
  (if D.vw then [v.1] else []) ++ (v.2.map (fun x => if D.ew then [x.1 + 1, x.2] else [x.1 + 1])).flatten

/-- `s` is a Metis file for `D` -/
def MetisFile (D : MetisDesc) (s : List Char) : Prop :=
  ∃ l e s0 s1 s2, Comments s (l ++ (e ++ s0)) ∧ Header D.n (forwards 0 D.verts).length D.ew D.vw l ∧
    (Eol e ∨ (e = [] ∧ s0 = [] ∧ D.verts = [])) ∧ Lines (D.verts.map D.toks) s0 s1 ∧ Comments s1 s2 ∧ End s2

/-! ### Partition files -/

def White (c : Char) : Prop := c = ' ' ∨ c = '\t' ∨ c = '\n' ∨ c = '\x0b' ∨ c = '\x0c' ∨ c = '\r'

/-- an integer with an optional sign -/
def Signed (v : Int) (s : List Char) : Prop :=
  ∃ n ds, Numeral n ds ∧ ((s = ds ∧ v = n) ∨ (s = '+' :: ds ∧ v = n) ∨ (s = '-' :: ds ∧ v = -(n : Int)))

/-- `s` consists of the given integers, separated by white space -/
inductive PartText : List Int → List Char → Prop
  | nil {ws} : (∀ c ∈ ws, White c) → PartText [] ws
  | cons {v vs ws ds t} : (∀ c ∈ ws, White c) → Signed v ds → (t = [] ∨ ∃ c t', t = c :: t' ∧ White c) → PartText vs t → PartText (v :: vs) (ws ++ (ds ++ t))

end Text
end Verif
