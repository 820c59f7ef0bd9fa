import Verif.Lemmas.Heap
/-!
# C29  Priority queues always deliver the best element
-/
namespace Verif
open SMap (wr)

section
variable {K : Type} [DecidableEq K]

/-- Plain meaning of the operations on the map "element ↦ key".  `t` is the element the queue
reports as its top. -/
def HeapOp.apply (m : FMap K) (t : Nat) : HeapOp K → FMap K
  | .insert e k => fun x => if x = e then some k else m x
  | .deleteTop => fun x => if x = t then none else m x
  | .remove e => fun x => if x = e then none else m x
  | .adjustKey e k => fun x => if x = e then some k else m x
  | .increaseKey e k => fun x => if x = e then some k else m x
  | .decreaseKey e k => fun x => if x = e then some k else m x
  | .insertOrAdjust e k => fun x => if x = e then some k else m x
  | .clear => fun _ => none
  | .foreign _ _ => m

/-- What the caller has to guarantee: no double insertion, elements to be removed or adjusted are
present, `deleteTop` on a non-empty queue, `increaseKey` / `decreaseKey` change the key in the right
direction, and other users of the positions array only touch elements that are not in this queue. -/
def HeapOp.Legal (comp : K → K → Bool) (m : FMap K) : HeapOp K → Prop
  | .insert e _ => m e = none
  | .deleteTop => ∃ e, (m e).isSome
  | .remove e => (m e).isSome
  | .adjustKey e _ => (m e).isSome
  | .increaseKey e k => ∃ k₀, m e = some k₀ ∧ comp k k₀ = false
  | .decreaseKey e k => ∃ k₀, m e = some k₀ ∧ comp k₀ k = false
  | .insertOrAdjust _ _ => True
  | .clear => True
  | .foreign e _ => m e = none

/-- Executes a history on the heap and on the plain map side by side. -/
def heapRun (comp : K → K → Bool) (arity inv : Nat) : Heap K × FMap K → List (HeapOp K) → Heap K × FMap K
  | sm, [] => sm
  | sm, o :: os => heapRun comp arity inv (sm.1.exec comp arity inv o, o.apply sm.2 sm.1.top) os

/-- Every operation is legal in the state it is executed in. -/
def HeapLegal (comp : K → K → Bool) (arity inv : Nat) : Heap K × FMap K → List (HeapOp K) → Prop
  | _, [] => True
  | sm, o :: os => o.Legal comp sm.2 ∧
      HeapLegal comp arity inv (sm.1.exec comp arity inv o, o.apply sm.2 sm.1.top) os

variable {comp : K → K → Bool} {arity : Nat}

theorem Heap.Inv.exec (ho : StrictTotal comp) (ha : 1 < arity) (inv : Nat) {s : Heap K} {m : FMap K}
    (h : s.Inv comp arity m) {o : HeapOp K} (hl : o.Legal comp m) :
    (s.exec comp arity inv o).Inv comp arity (o.apply m s.top) := by
  cases o with
  | insert e k => exact h.insert ho ha hl k
  | deleteTop =>
    obtain ⟨e, he⟩ := hl
    obtain ⟨k, hk⟩ := Option.isSome_iff_exists.1 he
    exact h.deleteTop ho ha inv (by have := (h.idx hk).1; omega)
  | remove e => exact h.remove ho ha inv hl
  | adjustKey e k => exact h.adjustKey ho ha hl
  | increaseKey e k => obtain ⟨k₀, h1, h2⟩ := hl; exact h.increaseKey ho ha h1 h2
  | decreaseKey e k => obtain ⟨k₀, h1, h2⟩ := hl; exact h.decreaseKey ho ha h1 h2
  | insertOrAdjust e k =>
    simp only [Heap.exec, Heap.insertOrAdjust, h.contains_iff e]
    cases he : m e with
    | none => simp only [Option.isSome_none, Bool.false_eq_true, if_false]; exact h.insert ho ha he k
    | some k₀ =>
      simp only [Option.isSome_some, if_true]
      exact h.adjustKey ho ha (by rw [he]; rfl)
  | clear =>
    exact ⟨DenseInv.empty _, fun i hi => absurd hi (Nat.not_lt_zero _),
      fun i _ hi => absurd hi (Nat.not_lt_zero _)⟩
  | foreign e p =>
    refine ⟨h.dense, fun i hi => ?_, h.ord⟩
    have hi' : i < s.size := hi
    show wr s.pos e p (s.heap i).1 = i
    rw [wr_other]
    · exact h.pos i hi'
    · intro hc
      have := h.dense.sound i hi'
      rw [hc, show m e = none from hl] at this
      simp at this

theorem heapRun_inv (ho : StrictTotal comp) (ha : 1 < arity) (inv : Nat) (os : List (HeapOp K)) :
    ∀ {s : Heap K} {m : FMap K}, s.Inv comp arity m → HeapLegal comp arity inv (s, m) os →
    (heapRun comp arity inv (s, m) os).1.Inv comp arity (heapRun comp arity inv (s, m) os).2 := by
  induction os with
  | nil => intro s m h _; exact h
  | cons o os ih => intro s m h hl; exact ih (h.exec ho ha inv hl.1) hl.2

/-- **C29.**  For every strict total order of keys, every arity of at least two, every content of the
positions array and of unused memory, and every legal history starting with an empty queue: the
queue contains exactly the elements of the plain map with their keys, has as many entries as the map,
and if it is not empty, the top is an element of the map whose key is a maximum.  (With the order
reversed this is a min-queue.) -/
theorem C29_priority_queue (ho : StrictTotal comp) (ha : 2 ≤ arity) (inv : Nat)
    (heap : Nat → Nat × K) (pos : Nat → Nat) (os : List (HeapOp K))
    (hl : HeapLegal comp arity inv (⟨0, heap, pos⟩, fun _ => none) os) :
    let s := (heapRun comp arity inv (⟨0, heap, pos⟩, fun _ => none) os).1
    let m := (heapRun comp arity inv (⟨0, heap, pos⟩, fun _ => none) os).2
    (∀ e, s.contains e = (m e).isSome) ∧
    (∀ e k, m e = some k → s.getKey e = k) ∧
    Lists ((List.range s.size).map s.heap) m ∧
    (0 < s.size → m s.top = some s.topKey ∧ ∀ e k, m e = some k → comp s.topKey k = false) := by
  intro s m
  have h0 : (⟨0, heap, pos⟩ : Heap K).Inv comp arity (fun _ => none) :=
    ⟨DenseInv.empty _, fun i hi => absurd hi (Nat.not_lt_zero _),
      fun i _ hi => absurd hi (Nat.not_lt_zero _)⟩
  have h : s.Inv comp arity m := heapRun_inv ho ha inv os h0 hl
  refine ⟨h.contains_iff, fun e k hk => ?_, h.dense.lists, fun hs => ⟨h.dense.sound 0 hs, ?_⟩⟩
  · unfold Heap.getKey; rw [(h.idx hk).2]
  · intro e k hk
    obtain ⟨h1, h2⟩ := h.idx hk
    have := h.top_max ho ha _ h1
    rw [h2] at this
    exact this

end

theorem int_lt_strictTotal : StrictTotal (fun a b : Int => decide (a < b)) :=
  ⟨fun a => by simp, fun a b c => by simp only [decide_eq_true_eq]; omega,
   fun a b => by simp only [decide_eq_false_iff_not]; omega⟩

/-- **C29 for `MaxHeap`** (integer keys, `std::less`, arity 2): the top key is the largest key. -/
theorem C29_max_heap (inv : Nat) (heap : Nat → Nat × Int) (pos : Nat → Nat) (os : List (HeapOp Int))
    (hl : HeapLegal (fun a b : Int => decide (a < b)) 2 inv (⟨0, heap, pos⟩, fun _ => none) os) :
    let s := (heapRun (fun a b : Int => decide (a < b)) 2 inv (⟨0, heap, pos⟩, fun _ => none) os).1
    let m := (heapRun (fun a b : Int => decide (a < b)) 2 inv (⟨0, heap, pos⟩, fun _ => none) os).2
    0 < s.size → m s.top = some s.topKey ∧ ∀ e k, m e = some k → k ≤ s.topKey := by
  intro s m hs
  obtain ⟨_, _, _, h⟩ := C29_priority_queue int_lt_strictTotal (le_refl 2) inv heap pos os hl
  refine ⟨(h hs).1, fun e k hk => ?_⟩
  have := (h hs).2 e k hk
  simpa using this

/-- a legal history used as non-vacuity check -/
def exHeapOps : List (HeapOp Int) :=
  [.insert 4 7, .insert 2 9, .insert 0 3, .foreign 8 1, .adjustKey 0 12, .deleteTop, .insertOrAdjust 1 8,
   .remove 2, .insertOrAdjust 4 1]

example : HeapLegal (fun a b : Int => decide (a < b)) 2 99 (⟨0, fun _ => (0, 0), fun i => i⟩, fun _ => none)
    exHeapOps ∧
    (heapRun (fun a b : Int => decide (a < b)) 2 99 (⟨0, fun _ => (0, 0), fun i => i⟩, fun _ => none)
      exHeapOps).1.top = 1 := by
  refine ⟨⟨rfl, rfl, rfl, rfl, rfl, ⟨2, rfl⟩, trivial, rfl, trivial, trivial⟩, by decide⟩

end Verif
