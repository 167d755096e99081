import Verif.SoASet
import Verif.StackProps
import Verif.QueueProps

/-!
# `Stack` and `Queue` of dataclass instances

`StackModel` and `QueueModel` hold a list of values.  In the code `val_store` is one instance of the value class with a batch axis:
a tree of arrays, written with `val_store.at[i].set(items)` and read with `val_store[i]`, field by field.  This file models that
(`xtructure/stack/stack.py`, `xtructure/queue/queue.py`, on top of `SoAModel`), `Records.lean` proves that it refines the lists.
-/

namespace Records

open Agg NArr SoA

variable {α : Type} [Inhabited α]

/-- The records of an instance with one batch axis of length `n`, in order. -/
def recs (n : Nat) (x : Tree α) : List (Tree α) := (List.range n).map fun k => item [k] x

/-- The order in which the scatter of each field applies its updates (unspecified, may differ from field to field): for the shape of the
selection, every position once. -/
def Order := List Nat → List String → List (List Nat)

def Order.Valid (ord : Order) : Prop := ∀ s p, (ord s p).Perm (indices s)

/-- `Stack` (stack.py:64-78) with its `val_store` as the instance it is. -/
structure RStack (α : Type) where
  maxSize : Nat
  size : Nat
  store : Tree α

/-- `_stack_build_jit` (stack.py:11-15). -/
def RStack.build (c : Cls α) (maxSize : Nat) : Option (RStack α) :=
  (defaultInst c [maxSize]).map fun x => ⟨maxSize, 0, x⟩

/-- `_stack_push_jit` (stack.py:18-35).  `none`: the assertion on the batch shape, or `len` of the batch shape -1, raises. -/
def RStack.push (c : Cls α) (ord : Order) (s : RStack α) (items : Tree α) : Option (RStack α) :=
  match batchShape c items with
  | some (.tup []) =>
    some { s with size := Jax.u32 (s.size + 1), store := atSet (ord []) (.basic [.int s.size]) [] s.store items }
  | some (.tup [k]) =>
    some { s with
      size := Jax.u32 (s.size + k)
      store := atSet (ord [k]) (.adv [k] [(List.range k).map fun (j : Nat) => Jax.i32 ((s.size : Int) + (j : Int))]) [] s.store items }
  | _ => none

/-- The reads of `_stack_pop_jit` and `_stack_peek_jit` (stack.py:41-45, 51-55). -/
def RStack.top (s : RStack α) (k : Nat) : Option (Tree α) :=
  if k = 1 then SoA.getitem s.store (.basic [.int (Jax.u32 (s.size - 1))])
  else SoA.getitem s.store (.adv [k] [(List.range k).map fun (j : Nat) => Jax.i32 ((s.size : Int) - ((k - j : Nat) : Int))])

/-- `_stack_pop_jit` (stack.py:38-46). -/
def RStack.pop (s : RStack α) (k : Nat) : RStack α × Option (Tree α) :=
  ({ s with size := Jax.u32 (s.size - k) }, s.top k)

/-- Operations of the public API (stack.py:95-138). -/
inductive SOp (α : Type) where
  | push (items : Tree α)
  | pop (k : Nat)
  | peek (k : Nat)
  | get (i : Nat)
  | size

/-- Observable result of a call: nothing, an instance (`none`: an exception), a number. -/
inductive Out (α : Type) where
  | unit
  | inst (r : Option (Tree α))
  | nat (n : Nat)

/-- One API call (stack.py:18-61, 95-138); `none`: `push` raises. -/
def RStack.step (c : Cls α) (ord : Order) (s : RStack α) : SOp α → Option (RStack α × Out α)
  | .push x => (s.push c ord x).map fun s' => (s', .unit)
  | .pop k => some ((s.pop k).1, .inst (s.pop k).2)
  | .peek k => some (s, .inst (s.top k))                                              -- stack.py:49-56
  | .get i => some (s, .inst (SoA.getitem s.store (.basic [.int i])))                  -- stack.py:59-61
  | .size => some (s, .nat s.size)

/-- A history of calls; the history ends at the first exception of a `push`. -/
def RStack.run (c : Cls α) (ord : Order) (s : RStack α) : List (SOp α) → Option (RStack α × List (Out α))
  | [] => some (s, [])
  | op :: ops => (s.step c ord op).bind fun p => (p.1.run c ord ops).map fun q => (q.1, p.2 :: q.2)

/-- `Queue` (queue.py:67-83) with its `val_store` as the instance it is. -/
structure RQueue (α : Type) where
  maxSize : Nat
  store : Tree α
  head : Nat
  tail : Nat

/-- `_queue_build_jit` (queue.py:11-16). -/
def RQueue.build (c : Cls α) (maxSize : Nat) : Option (RQueue α) :=
  (defaultInst c [maxSize]).map fun x => ⟨maxSize, x, 0, 0⟩

/-- `_queue_enqueue_jit` (queue.py:19-31). -/
def RQueue.enqueue (c : Cls α) (ord : Order) (q : RQueue α) (items : Tree α) : Option (RQueue α) :=
  match batchShape c items with
  | some (.tup []) =>
    some { q with store := atSet (ord []) (.basic [.int q.tail]) [] q.store items, tail := Jax.u32 ((q.tail : Int) + 1) }
  | some (.tup [k]) =>
    some { q with
      store := atSet (ord [k]) (.adv [k] [(List.range k).map fun (j : Nat) => Jax.i32 ((q.tail : Int) + (j : Int))]) [] q.store items
      tail := Jax.u32 ((q.tail : Int) + (k : Int)) }
  | _ => none

/-- The reads of `_queue_dequeue_jit` and `_queue_peek_jit` (queue.py:36-41, 48-52). -/
def RQueue.front (q : RQueue α) (k : Nat) : Option (Tree α) :=
  if k = 1 then SoA.getitem q.store (.basic [.int q.head])
  else SoA.getitem q.store (.adv [k] [(List.range k).map fun (j : Nat) => Jax.i32 ((q.head : Int) + (j : Int))])

/-- `_queue_dequeue_jit` (queue.py:34-43). -/
def RQueue.dequeue (q : RQueue α) (k : Nat) : RQueue α × Option (Tree α) :=
  ({ q with head := Jax.u32 ((q.head : Int) + (k : Int)) }, q.front k)

/-- `_queue_clear_jit` (queue.py:56-58). -/
def RQueue.clear (q : RQueue α) : RQueue α := { q with head := 0, tail := 0 }

/-- `_queue_getitem_jit` (queue.py:61-64); `signed`: the index is an `int32` array. -/
def RQueue.get (q : RQueue α) (signed : Bool) (i : Nat) : Option (Tree α) :=
  SoA.getitem q.store (.basic [.int (if signed then Jax.i32 ((q.head : Int) + i) else Jax.u32 ((q.head : Int) + i))])

/-- Operations of the public API (queue.py:85-124). -/
inductive QOp (α : Type) where
  | enqueue (items : Tree α)
  | dequeue (k : Nat)
  | peek (k : Nat)
  | clear
  | get (signed : Bool) (i : Nat)
  | size

/-- One API call (queue.py:19-64, 85-124); `none`: `enqueue` raises. -/
def RQueue.step (c : Cls α) (ord : Order) (q : RQueue α) : QOp α → Option (RQueue α × Out α)
  | .enqueue x => (q.enqueue c ord x).map fun q' => (q', .unit)
  | .dequeue k => some ((q.dequeue k).1, .inst (q.dequeue k).2)
  | .peek k => some (q, .inst (q.front k))
  | .clear => some (q.clear, .unit)
  | .get sg i => some (q, .inst (q.get sg i))
  | .size => some (q, .nat (Jax.u32 ((q.tail : Int) - (q.head : Int))))               -- queue.py:85-87

/-- A history of calls; the history ends at the first exception of an `enqueue`. -/
def RQueue.run (c : Cls α) (ord : Order) (q : RQueue α) : List (QOp α) → Option (RQueue α × List (Out α))
  | [] => some (q, [])
  | op :: ops => (q.step c ord op).bind fun p => (p.1.run c ord ops).map fun r => (r.1, p.2 :: r.2)

end Records
