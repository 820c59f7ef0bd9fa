/-!
# Specification: finite maps and sets of flags
-/
namespace Verif

/-- A map from keys to values. -/
abbrev FMap (V : Type) := Nat → Option V

/-- Operations of a client: `m[k] = g(m[k])` (where a missing key is first inserted with the default
value), insertion if absent, removal, clearing everything. -/
inductive MapOp (V : Type) where
  | modify (k : Nat) (g : V → V)
  | add (k : Nat) (v : V)
  | remove (k : Nat)
  | clear

/-- Effect on a plain map; `d` is the default value. -/
def MapOp.apply {V : Type} (d : V) (m : FMap V) : MapOp V → FMap V
  | .modify k g => fun x => if x = k then some (g ((m k).getD d)) else m x
  | .add k v => fun x => if x = k then some ((m k).getD v) else m x
  | .remove k => fun x => if x = k then none else m x
  | .clear => fun _ => none

/-- Plain map after a history, starting empty. -/
def MapOp.run {V : Type} (d : V) (os : List (MapOp V)) : FMap V :=
  os.foldl (MapOp.apply d) (fun _ => none)

/-- The list `l` of key-value pairs is a listing of the map `m`: every key occurs once, and the
pairs are exactly the entries of `m`. -/
def Lists {V : Type} (l : List (Nat × V)) (m : FMap V) : Prop :=
  (l.map Prod.fst).Nodup ∧ ∀ k v, (k, v) ∈ l ↔ m k = some v

/-- Operations on a resettable array of flags. -/
inductive FlagOp where
  | set (i : Nat) (b : Bool)
  | compareAndSet (i : Nat)
  | reset
  | resize (n : Nat) (init : Bool)

/-- The plain meaning: number of flags and their values.  Growing makes all flags `init`, shrinking
keeps the remaining flags. -/
def FlagOp.apply (s : Nat × (Nat → Bool)) : FlagOp → Nat × (Nat → Bool)
  | .set i b => (s.1, fun x => if x = i then b else s.2 x)
  | .compareAndSet i => (s.1, fun x => if x = i then true else s.2 x)
  | .reset => (s.1, fun _ => false)
  | .resize n init => if n > s.1 then (n, fun _ => init) else (n, s.2)

/-- What `compare_and_set_to_true` reports: whether the flag changed from false to true. -/
def FlagOp.result (s : Nat × (Nat → Bool)) : FlagOp → Bool
  | .compareAndSet i => !s.2 i
  | _ => false

/-- Indices must be in range. -/
def FlagOp.Legal (s : Nat × (Nat → Bool)) : FlagOp → Prop
  | .set i _ => i < s.1
  | .compareAndSet i => i < s.1
  | _ => True

def FlagOp.AllLegal : Nat × (Nat → Bool) → List FlagOp → Prop
  | _, [] => True
  | s, o :: os => o.Legal s ∧ AllLegal (o.apply s) os

def FlagOp.run (s : Nat × (Nat → Bool)) (os : List FlagOp) : Nat × (Nat → Bool) :=
  os.foldl FlagOp.apply s

def FlagOp.results : Nat × (Nat → Bool) → List FlagOp → List Bool
  | _, [] => []
  | s, o :: os => o.result s :: results (o.apply s) os

end Verif
