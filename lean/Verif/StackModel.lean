import Verif.Jax

/-!
# Model of `xtructure/stack/stack.py`
-/

namespace StackModel

open Jax

/-- `Stack` (stack.py:64-78): `max_size` is `store.length` (it is only used to size `val_store`),
`size` is a `uint32`.  Simplification: a batched value instance is a `List α` (removed in C88, `RecordModel.lean`). -/
structure Stack (α : Type u) where
  size : Nat
  store : List α

/-- `_stack_build_jit` (stack.py:11-15): `d` is `value_class.default()`. -/
def build (d : α) (maxSize : Nat) : Stack α := { size := 0, store := List.replicate maxSize d }

/-- `_stack_push_jit`, `batch_size == ()` branch (stack.py:21-23, 28, 35): the index is the `uint32`
scalar `size`. -/
def push1 (s : Stack α) (x : α) : Stack α :=
  { size := u32 (s.size + 1), store := scatterU1 s.store s.size x }

/-- `_stack_push_jit`, batched branch (stack.py:24-28, 35): indices are `uint32 + int32 = int32`. -/
def pushN (s : Stack α) (xs : List α) : Stack α :=
  { size := u32 (s.size + xs.length)
    store := scatter s.store ((List.range xs.length).map fun (k : Nat) => i32 ((s.size : Int) + (k : Int))) xs }

/-- Indices read by `_stack_pop_jit` and `_stack_peek_jit` (stack.py:41-44, 51-54), followed by the
gather `stack.val_store[indices]` (stack.py:45, 55).  `num_items == 1` uses the `uint32` scalar
`size - 1`, otherwise `size - jnp.arange(num_items, 0, -1)` is `int32`.  A single item is returned
as a one-element list.  `none`: JAX rejects reading an array of length 0. -/
def topItems (s : Stack α) (k : Nat) : Option (List α) :=
  if k = 1 then (gatherU s.store (u32 (s.size - 1))).map fun x => [x]
  else ((List.range k).map fun (j : Nat) => i32 ((s.size : Int) - ((k - j : Nat) : Int))).mapM
    (gather s.store)

/-- `_stack_pop_jit` (stack.py:38-46). -/
def pop (s : Stack α) (k : Nat) : Stack α × Option (List α) :=
  ({ s with size := u32 (s.size - k) }, topItems s k)

/-- `_stack_peek_jit` (stack.py:49-56). -/
def peek (s : Stack α) (k : Nat) : Option (List α) := topItems s k

/-- `_stack_getitem_jit` (stack.py:59-61) with a (signed) Python or `int32` index. -/
def getitem (s : Stack α) (i : Int) : Option α := gather s.store i

/-- Operations of the public API (stack.py:95-138); `size` reads the `size` attribute. -/
inductive Op (α : Type u) : Type u
  | push1 (x : α)
  | push (xs : List α)
  | pop (k : Nat)
  | peek (k : Nat)
  | get (i : Nat)
  | size

/-- Observable result of an operation. -/
inductive Out (α : Type u)
  | unit
  | items (r : Option (List α))
  | item (r : Option α)
  | nat (n : Nat)
  deriving DecidableEq

/-- One API call. -/
def step (s : Stack α) : Op α → Stack α × Out α
  | .push1 x => (push1 s x, .unit)
  | .push xs => (pushN s xs, .unit)
  | .pop k => let (s', r) := pop s k; (s', .items r)
  | .peek k => (s, .items (peek s k))
  | .get i => (s, .item (getitem s i))
  | .size => (s, .nat s.size)

/-- A history of API calls: final state and outputs in order. -/
def run (s : Stack α) : List (Op α) → Stack α × List (Out α)
  | [] => (s, [])
  | op :: ops =>
    let (s1, o) := step s op
    let (s2, os) := run s1 ops
    (s2, o :: os)

end StackModel
