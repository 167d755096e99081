import Verif.Jax
import Verif.MergeModel

/-!
# Model of `xtructure/bgpq/{bgpq,_insert,_delete,_utils}.py`

A row of `key_store` together with the same row of `val_store` is a list of (key, value) pairs; the
pair-level `MergeModel.mergeSplit` is `merge_sort_split` (theorem `MergeModel.merge_sort_split_pairs`).
-/

namespace Bgpq

open MergeModel

variable {K : Type u} [KeyPad K] {V : Type v}

/-- `BGPQ` (bgpq.py:61-86).  `max_size` is `branchSize * batchSize` (bgpq.py:39). -/
structure Heap (K : Type u) (V : Type v) where
  branchSize : Nat
  batchSize : Nat
  heapSize : Nat
  bufferSize : Nat
  rows : List (List (K × V))
  buffer : List (K × V)

/-- `heap.max_size` (bgpq.py:39). -/
def Heap.maxSize (h : Heap K V) : Nat := h.branchSize * h.batchSize

/-- `_bgpq_build_jit` (bgpq.py:30-58); `dflt` is the default value of the value class. -/
def build (totalSize batchSize : Nat) (dflt : V) : Heap K V :=
  let branch := if totalSize % batchSize = 0 then totalSize / batchSize else totalSize / batchSize + 1
  { branchSize := branch, batchSize := batchSize, heapSize := 0, bufferSize := 0,
    rows := List.replicate branch (List.replicate batchSize (KeyPad.inf, dflt)),
    buffer := List.replicate (batchSize - 1) (KeyPad.inf, dflt) }

/-- `jnp.isfinite(key)` of a pair. -/
def fin (p : K × V) : Bool := KeyPad.isFin p.1

/-- `jnp.sum(jnp.isfinite(keys))`. -/
def nFinite (l : List (K × V)) : Nat := l.countP fin

/-- `key_store[i]`, `val_store[i]` with an unsigned index (gather, clamped).  The store has at least
one row, so the default is never used. -/
def rowAt (rows : List (List (K × V))) (i : Nat) : List (K × V) := (Jax.gatherU rows i).getD []

/-- `keys[0]` / `keys[-1]` of a row (rows are not empty, so the defaults are never used). -/
def firstKey (r : List (K × V)) : K := ((r.head?).map Prod.fst).getD KeyPad.inf
def lastKey (r : List (K × V)) : K := ((r.getLast?).map Prod.fst).getD KeyPad.inf

/-- `BGPQ.size` (bgpq.py:105-119), `uint32` arithmetic. -/
def Heap.size (h : Heap K V) : Nat :=
  if h.heapSize = 0 then Jax.u32 (nFinite (rowAt h.rows 0) + h.bufferSize)
  else Jax.u32 ((h.heapSize + 1) * h.batchSize + h.bufferSize)

/-- `_bgpq_make_batched_jit` / `_bgpq_make_batched_like_jit` (_insert.py:76-90): pad keys with `inf`
and values with the class default.  A negative pad width (more than `batchSize` keys) is a JAX error:
`none`. -/
def makeBatched (dflt : V) (batchSize : Nat) (l : List (K × V)) : Option (List (K × V)) :=
  if l.length ≤ batchSize then some (l ++ List.replicate (batchSize - l.length) (KeyPad.inf, dflt))
  else none

/-- `_bgpq_merge_buffer_jit` (_insert.py:24-72): merged buffer, outgoing block, overflow flag. -/
def mergeBuffer (h : Heap K V) (block : List (K × V)) : Heap K V × List (K × V) × Bool :=
  let n := h.batchSize
  let s := sortKeyVal (block ++ h.buffer)           -- lines 32-44 (all backends agree)
  let overflow := decide (nFinite s ≥ n)            -- lines 47-49
  let (blk, buf) :=
    if overflow then (s.take n, s.drop n)           -- lines 51-54
    else (s.drop (s.length - n), s.take (s.length - n))  -- lines 56-58: `[-n:]`, `[:-n]`
  ({ h with buffer := buf, bufferSize := nFinite buf }, blk, overflow)

/-- `max_depth = ceil(log2(branch_size + 1))` (_insert.py:106, _delete.py:44), computed exactly
(see `maxDepth_spec`). -/
def maxDepth (branch : Nat) : Nat := branch.log2 + 1

/-- Loop of `argmaxLast`. -/
def argmaxAux (best : Nat) (bestKey : K) : Nat → List K → Nat
  | _, [] => best
  | i, k :: ks => if KeyCmp.le k bestKey then argmaxAux best bestKey (i + 1) ks
      else argmaxAux i k (i + 1) ks

/-- `jnp.argmax(h.key_store[:, -1])` (_insert.py:98-100): first index of the largest last key. -/
def argmaxLast (rows : List (List (K × V))) : Nat :=
  match rows.map lastKey with
  | [] => 0
  | k :: ks => argmaxAux 0 k 1 ks

/-- `_path_indices(target)` (_insert.py:108-117): for each level the node on the path from the root
to `target` and the mask `level <= depth`.  For masked-out levels the `uint32` subtraction
`depth - level` wraps, the shift is ≥ 32, the shifted node 0 and the index `-1` as int32; the code never
uses it (`2^32 - 1` here). -/
def pathIndices (depthMax target : Nat) : List (Nat × Bool) :=
  let node := target + 1
  let depth := node.log2
  (List.range depthMax).map fun level =>
    if level ≤ depth then ((node >>> (depth - level)) - 1, true) else (2 ^ 32 - 1, false)

/-- `jax.lax.scan(scan_body, ...)` over the rows of the path (_insert.py:134-150): carry and new rows. -/
def scanPath : List (List (K × V) × Bool) → List (K × V) → List (List (K × V)) × List (K × V)
  | [], carry => ([], carry)
  | (node, doMerge) :: rest, carry =>
    if doMerge then
      let (head, next) := mergeSplit node carry
      let (heads, fin) := scanPath rest next
      (head :: heads, fin)
    else
      let (heads, fin) := scanPath rest carry
      (node :: heads, fin)

/-- `_scatter_update_rows` (_utils.py:41-63): `FILL_OR_DROP` scatter of rows, out-of-range indices
dropped.  The code promises `unique_indices=True`; `deleteUpdates_nodup` and `insertUpdates_nodup`
show that in-range indices are indeed distinct, so the order of application does not matter. -/
def scatterRows (rows : List (List (K × V))) (upd : List (Nat × List (K × V))) : List (List (K × V)) :=
  upd.foldl (fun r u => if u.1 < r.length then r.set u.1 u.2 else r) rows

/-- The updates of `_update_path` (_insert.py:127-154). -/
def insertUpdates (h : Heap K V) (target : Nat) (block : List (K × V)) :
    List (Nat × List (K × V)) :=
  let path := pathIndices (maxDepth h.branchSize) target
  let masked := path.zipIdx.map fun (p, lvl) => (p.1, p.2 && decide (lvl > 0))    -- line 129
  let nodes := masked.map fun (i, m) => (rowAt h.rows (if m then i else 0), m)     -- lines 130-132
  let heads := (scanPath nodes block).1                                            -- lines 148-150
  let idx := masked.zipIdx.map fun (p, lvl) =>
    if p.2 || decide (lvl = 0) then p.1 else h.branchSize                          -- lines 152-154
  idx.zip heads

/-- `_bgpq_insert_heapify_internal` (_insert.py:93-191): new heap and `added`. -/
def insertHeapify (h : Heap K V) (block : List (K × V)) : Heap K V × Bool :=
  let isFull := decide (h.heapSize ≥ h.branchSize - 1)                              -- line 96
  let last := if isFull then argmaxLast h.rows else h.heapSize + 1                  -- lines 98-104
  let valid := decide (last < h.branchSize)                                         -- line 184
  let h' :=
    if valid then
      if last = 0 then                                                              -- lines 119-125
        { h with rows := h.rows.set 0 (mergeSplit (rowAt h.rows 0) block).1 }
      else { h with rows := scatterRows h.rows (insertUpdates h last block) }       -- lines 127-172
    else h
  (h', valid && !isFull)                                                            -- line 190

/-- `_bgpq_insert_jit` (_insert.py:195-221). -/
def insert (h : Heap K V) (block : List (K × V)) : Heap K V :=
  let block := sortKeyVal block                                                     -- sort_arrays, _utils.py:33-38
  let (root, block) := mergeSplit (rowAt h.rows 0) block
  let h := { h with rows := h.rows.set 0 root }
  let (h, block, overflow) := mergeBuffer h block
  let (h, added) := if overflow then insertHeapify h block else (h, false)
  { h with heapSize := h.heapSize + (if added then 1 else 0) }

/-- The `while_loop` of `_bgpq_delete_heapify_internal` (_delete.py:71-154): `rows` is the store read
by the loop (never changed inside it), `upd` the update buffer.  `fuel` bounds the number of
iterations: running out gives `none`, and `siftLoop_some` shows this never happens. -/
def siftLoop (rows : List (List (K × V))) : Nat → Nat → List (K × V) →
    List (Nat × List (K × V)) → Option (Nat × List (K × V) × List (Nat × List (K × V)))
  | 0, _, _, _ => none
  | fuel + 1, cur, keys, upd =>
    let left := cur * 2 + 1
    let right := cur * 2 + 2
    let l := rowAt rows left
    let r := rowAt rows right
    -- `_cond` (lines 71-78): `max_c > minimum(min_l, min_r)`
    let minLR := if KeyCmp.le (firstKey l) (firstKey r) then firstKey l else firstKey r
    if KeyCmp.le (lastKey keys) minLR then some (cur, keys, upd)
    else
      -- `_body` (lines 80-140)
      let (x, y) := if KeyCmp.le (lastKey l) (lastKey r) then (right, left) else (left, right)
      let (ky, kx) := mergeSplit l r
      let (kc, ky) := mergeSplit keys ky
      siftLoop rows fuel y ky (upd ++ [(cur, kc), (x, kx)])

/-- The list of row updates of `_bgpq_delete_heapify_internal` (_delete.py:142-178): the update buffer
has `2 * max_depth + 1` entries, later writes are dropped. -/
def deleteUpdates (branch : Nat) (rows : List (List (K × V))) (root : List (K × V)) :
    Option (List (Nat × List (K × V))) :=
  (siftLoop rows (maxDepth branch) 0 root []).map fun (cur, keys, upd) =>
    (upd ++ [(cur, keys)]).take (maxDepth branch * 2 + 1)

/-- `_bgpq_delete_heapify_internal` (_delete.py:17-197). -/
def deleteHeapify (h : Heap K V) : Option (Heap K V) :=
  let last := h.heapSize
  let lastRow := rowAt h.rows last
  let (root, buf) := mergeSplit lastRow h.buffer                                     -- lines 25-28
  -- lines 30-36: keys of row `last` become `inf` (values stay), row 0 becomes the new root
  let rows := (h.rows.set last (lastRow.map fun p => (KeyPad.inf, p.2))).set 0 root
  (deleteUpdates h.branchSize rows root).map fun upd =>
    { h with heapSize := last - 1, buffer := buf, rows := scatterRows rows upd }

/-- `_bgpq_delete_mins_jit` (_delete.py:201-225): new heap and the removed batch.  `none`: the
sift-down loop did not end (never happens, `delete_some`). -/
def deleteMins (h : Heap K V) : Option (Heap K V × List (K × V)) :=
  let mins := rowAt h.rows 0
  if h.heapSize = 0 then                                                             -- make_empty, 205-220
    let (root, buf) := mergeSplit (mins.map fun p => (KeyPad.inf, p.2)) h.buffer
    some ({ h with rows := h.rows.set 0 root, buffer := buf, bufferSize := 0 }, mins)
  else (deleteHeapify h).map fun h' => (h', mins)

end Bgpq
