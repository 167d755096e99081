import Verif.BgpqModel

/-!
# Model: keys of another dtype than the queue's `key_dtype`

`BGPQ.insert` takes its keys in any dtype; nothing casts them to `key_dtype` first.  Two things are
modelled: the dtypes the traced function sees (does the insert raise?), and the values.
-/

namespace Bgpq

/-- Key dtypes (all integer dtypes are one case: they promote alike against floats).  The float8 dtypes,
complex and weakly typed arrays are not modelled. -/
inductive KDt where
  | bool | int | bf16 | f16 | f32 | f64
  deriving DecidableEq, Repr

/-- `jnp.result_type(a, b)` on key dtypes: `bool < int < bf16, f16 < f32 < f64`, the two 16-bit floats
meeting in `f32` (JAX type promotion lattice; part of the trusted base). -/
def KDt.join : KDt → KDt → KDt
  | .bool, d => d
  | d, .bool => d
  | .int, d => d
  | d, .int => d
  | .bf16, .bf16 => .bf16
  | .f16, .f16 => .f16
  | .bf16, .f16 => .f32
  | .f16, .bf16 => .f32
  | .f64, _ => .f64
  | _, .f64 => .f64
  | _, _ => .f32

/-- The dtypes of `key_store` and `key_buffer`. -/
structure HeapDt where
  store : KDt
  buffer : KDt
  deriving DecidableEq, Repr

/-- dtypes of `_bgpq_build_jit` (bgpq.py:44-47; `key_dtype` is `float16` by default, line 90). -/
def buildDt (keyDtype : KDt) : HeapDt := ⟨keyDtype, keyDtype⟩

/-- dtypes of `merge_sort_split` / `merge_array_backend`: both outputs have the joined dtype
(merge_split/split.py, loop.py:252, parallel.py:269-281). -/
def mergeDt (a b : KDt) : KDt := KDt.join a b

/-- `jax.lax.cond`: both branches must return the same dtype, `none` is a `TypeError` at trace time. -/
def condDt (a b : KDt) : Option KDt := if a = b then some a else none

/-- Tracing `_bgpq_insert_heapify_internal` (_insert.py:93-191) with a block of dtype `blk`: the `cond` of
`scan_body` (lines 134-146) returns the merged head or the node as it was, and the merged rest or the carry;
the scatter (156-171) and `at[0].set` (line 123) keep the dtype of the store.  All of this is traced whether or
not the branch runs. -/
def heapifyDt (h : HeapDt) (blk : KDt) : Option HeapDt := do
  let _head ← condDt (mergeDt h.store blk) h.store
  let _carry ← condDt (mergeDt h.store blk) blk
  some h

/-- Tracing `_bgpq_insert_jit` (_insert.py:195-221) with keys of dtype `blk`: `sort_arrays` keeps the dtype
(_utils.py:33-38), the root merge and the buffer merge join dtypes, `at[0].set` keeps the store's, the new
buffer has the merged dtype (line 67), both branches of the `cond` (210-217) return a heap. -/
def insertDt (h : HeapDt) (blk : KDt) : Option HeapDt := do
  let rest := mergeDt h.store blk
  let merged := mergeDt rest h.buffer
  let h1 : HeapDt := { h with buffer := merged }
  let h2 ← heapifyDt h1 merged
  if h2 = h1 then some h1 else none

/-- Tracing `_bgpq_delete_mins_jit` (_delete.py:201-225): `make_empty` and the sift-down both merge the
buffer with a row of the store, and the `cond` needs one dtype for each of the two. -/
def deleteDt (h : HeapDt) : Option HeapDt := do
  let buffer ← condDt (mergeDt h.store h.buffer) (mergeDt h.store h.buffer)
  some { h with buffer := buffer }

open MergeModel

variable {K : Type u} [KeyPad K] {K' : Type w} [KeyCmp K'] {V : Type v}

/-- Values of `_bgpq_insert_jit` (_insert.py:195-221) for keys of another dtype that the trace accepts: the block
is sorted *in its own dtype* (line 196), then the first merge converts the keys (`conv`) to the joined
dtype, which is `key_dtype`. -/
def insertConv (conv : K' → K) (h : Heap K V) (block : List (K' × V)) : Heap K V :=
  let block := (sortKeyVal block).map fun p => (conv p.1, p.2)
  let (root, block) := mergeSplit (rowAt h.rows 0) block
  let h := { h with rows := h.rows.set 0 root }
  let (h, block, overflow) := mergeBuffer h block
  let (h, added) := if overflow then insertHeapify h block else (h, false)
  { h with heapSize := h.heapSize + (if added then 1 else 0) }

end Bgpq
