import Verif.Jax

/-!
# Model of `xtructure/queue/queue.py`
-/

namespace QueueModel

open Jax

/-- `Queue` (queue.py:67-83): `max_size` is `store.length`; `head` and `tail` are `uint32`.
Simplification: a batched value instance is a `List α` (removed in C88, `RecordModel.lean`). -/
structure Queue (α : Type u) where
  store : List α
  head : Nat
  tail : Nat

/-- `_queue_build_jit` (queue.py:11-16); `d` is `value_class.default()`. -/
def build (d : α) (maxSize : Nat) : Queue α :=
  { store := List.replicate maxSize d, head := 0, tail := 0 }

/-- `Queue.size` (queue.py:85-87): `uint32` subtraction. -/
def size (q : Queue α) : Nat := u32 ((q.tail : Int) - (q.head : Int))

/-- `_queue_enqueue_jit`, unbatched branch (queue.py:22-24, 29-31). -/
def enqueue1 (q : Queue α) (x : α) : Queue α :=
  { q with store := scatterU1 q.store q.tail x, tail := u32 ((q.tail : Int) + 1) }

/-- `_queue_enqueue_jit`, batched branch (queue.py:25-31): indices are `uint32 + int32 = int32`. -/
def enqueueN (q : Queue α) (xs : List α) : Queue α :=
  { q with
    store := scatter q.store ((List.range xs.length).map fun (k : Nat) => i32 ((q.tail : Int) + (k : Int))) xs
    tail := u32 ((q.tail : Int) + (xs.length : Int)) }

/-- The reads of `_queue_dequeue_jit` / `_queue_peek_jit` (queue.py:36-41, 48-52).  A single item is
returned as a one-element list; `none`: JAX rejects reading an array of length 0. -/
def frontItems (q : Queue α) (k : Nat) : Option (List α) :=
  if k = 1 then (gatherU q.store q.head).map fun x => [x]
  else ((List.range k).map fun (j : Nat) => i32 ((q.head : Int) + (j : Int))).mapM (gather q.store)

/-- `_queue_dequeue_jit` (queue.py:34-43). -/
def dequeue (q : Queue α) (k : Nat) : Queue α × Option (List α) :=
  ({ q with head := u32 ((q.head : Int) + (k : Int)) }, frontItems q k)

/-- `_queue_peek_jit` (queue.py:46-53). -/
def peek (q : Queue α) (k : Nat) : Option (List α) := frontItems q k

/-- `_queue_clear_jit` (queue.py:56-58). -/
def clear (q : Queue α) : Queue α := { q with head := 0, tail := 0 }

/-- `_queue_getitem_jit` (queue.py:61-64): `queue.head + idx` is `int32` when `idx` is an `int32`
array (`signed = true`) and `uint32` when it is a Python int (weakly typed) or a `uint32`
(`signed = false`). -/
def getitem (q : Queue α) (signed : Bool) (i : Int) : Option α :=
  if signed then gather q.store (i32 ((q.head : Int) + i))
  else gatherU q.store (u32 ((q.head : Int) + i))

/-- Operations of the public API (queue.py:85-124). -/
inductive Op (α : Type u) : Type u
  | enqueue1 (x : α)
  | enqueue (xs : List α)
  | dequeue (k : Nat)
  | peek (k : Nat)
  | clear
  | get (signed : Bool) (i : Nat)
  | size

/-- Observable result of an operation. -/
inductive Out (α : Type u)
  | unit
  | items (r : Option (List α))
  | item (r : Option α)
  | nat (n : Nat)
  deriving DecidableEq

/-- One API call. -/
def step (q : Queue α) : Op α → Queue α × Out α
  | .enqueue1 x => (enqueue1 q x, .unit)
  | .enqueue xs => (enqueueN q xs, .unit)
  | .dequeue k => let (q', r) := dequeue q k; (q', .items r)
  | .peek k => (q, .items (peek q k))
  | .clear => (clear q, .unit)
  | .get sg i => (q, .item (getitem q sg i))
  | .size => (q, .nat (size q))

/-- A history of API calls. -/
def run (q : Queue α) : List (Op α) → Queue α × List (Out α)
  | [] => (q, [])
  | op :: ops =>
    let (q1, o) := step q op
    let (q2, os) := run q1 ops
    (q2, o :: os)

end QueueModel
