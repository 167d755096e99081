import Verif.KeyOrd
import Verif.Jax

/-!
# Model of `xtructure/bgpq/merge_split/*.py` and `xtructure/bgpq/_merge.py`
-/

namespace MergeModel

variable {K : Type u} [KeyCmp K] {V : Type v}

/-- Comparison of `(key, payload)` pairs by key only. -/
def keyLE {P : Type v} (x y : K × P) : Bool := KeyCmp.le x.1 y.1

/-- `jax.lax.sort_key_val(keys, payload, is_stable=True)`: a stable sort by key
(JAX primitive; see `Jax.stableSort`). -/
def sortKeyVal {P : Type v} (l : List (K × P)) : List (K × P) := Jax.stableSort keyLE l

/-- `merge_sort_split_idx` (split.py:8-14): stable sort of the concatenation with an `arange`
payload; the result is the list of (key, index) pairs. -/
def mergeSortSplitIdx (ak bk : List K) : List (K × Nat) := sortKeyVal (ak ++ bk).zipIdx

/-- Main `while_loop` of `merge_indices_kernel_loop` (loop.py:79-124).  The two output refs are
written at `out_ptr = 0, 1, 2, …`, modelled by appending to `out`. -/
def loopMain (a b : List K) (ia ib : Nat) (out : List (K × Nat)) : Nat × Nat × List (K × Nat) :=
  if h : ia < a.length ∧ ib < b.length then
    if KeyCmp.le (a[ia]'h.1) (b[ib]'h.2) then loopMain a b (ia + 1) ib (out ++ [(a[ia]'h.1, ia)])
    else loopMain a b ia (ib + 1) (out ++ [(b[ib]'h.2, a.length + ib)])
  else (ia, ib, out)
termination_by (a.length - ia) + (b.length - ib)
decreasing_by all_goals omega

/-- Copy loop for the rest of `ak` (loop.py:144-180). -/
def loopA (a : List K) (ia : Nat) (out : List (K × Nat)) : Nat × List (K × Nat) :=
  if h : ia < a.length then loopA a (ia + 1) (out ++ [(a[ia], ia)]) else (ia, out)
termination_by a.length - ia

/-- Copy loop for the rest of `bk` (loop.py:197-231); `n` is `len(ak)`. -/
def loopB (n : Nat) (b : List K) (ib : Nat) (out : List (K × Nat)) : List (K × Nat) :=
  if h : ib < b.length then loopB n b (ib + 1) (out ++ [(b[ib], n + ib)]) else out
termination_by b.length - ib

/-- `merge_arrays_indices_loop` (loop.py:235-258) = `merge_indices_kernel_loop` (loop.py:8-231). -/
def mergeLoop (a b : List K) : List (K × Nat) :=
  let (ia, ib, out) := loopMain a b 0 0 []
  let (_, out) := loopA a ia out
  loopB a.length b ib out

/-- Loop of `binary_search_partition` (`cond_fn`/`body_fn`, common.py:47-96).  `minV`, `maxV` are the sentinels of `_get_sentinels`; a read of an empty array
(which never happens, see `partLoop_spec`) also yields a sentinel. -/
def partLoop (minV maxV : K) (k : Nat) (a b : List K) (low high : Nat) : Nat :=
  if h : low < high then
    let i := low + (high - low + 1) / 2
    let j := k - i
    let aVal := if i > 0 then (a[i - 1]?).getD minV else minV
    let bVal := if j < b.length then (b[j]?).getD maxV else maxV
    if KeyCmp.le aVal bVal then partLoop minV maxV k a b i high
    else partLoop minV maxV k a b low (i - 1)
  else low
termination_by high - low
decreasing_by all_goals omega

/-- `binary_search_partition` (common.py:14-97). -/
def binarySearchPartition (minV maxV : K) (k : Nat) (a b : List K) : Nat × Nat :=
  let low := k - b.length          -- `jnp.maximum(0, k - m)`
  let high := min a.length k
  let i := partLoop minV maxV k a b low high
  (i, k - i)

/-- `loop_body` of `merge_parallel_kernel` (parallel.py:134-158): the written (key, index) pair and
the next `(idx_a, idx_b)`.  `n, m ≥ 1` in every call, so the clamped reads exist; the model returns
no pair for empty arrays. -/
def kernelStep (a b : List K) (ia ib : Nat) : Option (K × Nat) × Nat × Nat :=
  match a[min ia (a.length - 1)]?, b[min ib (b.length - 1)]? with
  | some va, some vb =>
    let aEx := decide (ia ≥ a.length)
    let bEx := decide (ib ≥ b.length)
    let takeA := bEx || (!aEx && KeyCmp.le va vb)
    if takeA then (some (va, ia), ia + 1, ib) else (some (vb, a.length + ib), ia, ib + 1)
  | _, _ => (none, ia, ib)

/-- The `block_size` steps of one program (parallel.py:160-173; the unrolled and the `fori_loop`
variants are the same loop). -/
def kernelBlock (a b : List K) : Nat → Nat → Nat → List (K × Nat)
  | 0, _, _ => []
  | s + 1, ia, ib =>
    match kernelStep a b ia ib with
    | (some p, ia', ib') => p :: kernelBlock a b s ia' ib'
    | (none, _, _) => []

/-- `_merge_arrays_parallel` (parallel.py:260-301): special cases for empty inputs, one program per
block of `bs` outputs (each writes its own slice of the padded output), padding sliced off. -/
def mergeParallel (minV maxV : K) (bs : Nat) (a b : List K) : List (K × Nat) :=
  if a.length + b.length = 0 then []
  else if a.length = 0 then b.zipIdx
  else if b.length = 0 then a.zipIdx
  else
    let grid := (a.length + b.length + bs - 1) / bs
    ((List.range grid).flatMap fun blk =>
      let (i, j) := binarySearchPartition minV maxV (blk * bs) a b
      kernelBlock a b bs i j).take (a.length + b.length)

/-- `_gather_sorted_values` (_merge.py:22-54), default `gather` mode: clip both indices and select.
`none`: an index is out of range of both (does not happen). -/
def gatherSortedValues (av bv : List V) (idx : List Nat) : List (Option V) :=
  if av.length = 0 then idx.map fun i => bv[i]?
  else if bv.length = 0 then idx.map fun i => av[i]?
  else idx.map fun i =>
    if i < av.length then av[min i (av.length - 1)]? else bv[min (i - av.length) (bv.length - 1)]?

/-- `_gather_sorted_values` (_merge.py:26-28), `concat` mode. -/
def gatherSortedValuesConcat (av bv : List V) (idx : List Nat) : List (Option V) :=
  idx.map fun i => (av ++ bv)[i]?

/-- One step of the key-value kernel (parallel.py:198-224): like `kernelStep` but the value row is
copied instead of the index. -/
def kernelStepKV (ak : List K) (av : List V) (bk : List K) (bv : List V) (ia ib : Nat) :
    Option (K × V) × Nat × Nat :=
  match ak[min ia (ak.length - 1)]?, bk[min ib (bk.length - 1)]?,
      av[min ia (ak.length - 1)]?, bv[min ib (bk.length - 1)]? with
  | some ka, some kb, some va, some vb =>
    let aEx := decide (ia ≥ ak.length)
    let bEx := decide (ib ≥ bk.length)
    let takeA := bEx || (!aEx && KeyCmp.le ka kb)
    if takeA then (some (ka, va), ia + 1, ib) else (some (kb, vb), ia, ib + 1)
  | _, _, _, _ => (none, ia, ib)

def kernelBlockKV (ak : List K) (av : List V) (bk : List K) (bv : List V) :
    Nat → Nat → Nat → List (K × V)
  | 0, _, _ => []
  | s + 1, ia, ib =>
    match kernelStepKV ak av bk bv ia ib with
    | (some p, ia', ib') => p :: kernelBlockKV ak av bk bv s ia' ib'
    | (none, _, _) => []

/-- `_merge_arrays_parallel_kv` (parallel.py:324-360).  Simplification: the packing of value leaves
into power-of-two sized columns (parallel.py:397-502) is modelled separately. Note that, unlike the
index kernel, there is no special case for one empty input. -/
def mergeParallelKV (minV maxV : K) (bs : Nat) (ak : List K) (av : List V) (bk : List K)
    (bv : List V) : List (K × V) :=
  if ak.length + bk.length = 0 then []
  else
    let grid := (ak.length + bk.length + bs - 1) / bs
    ((List.range grid).flatMap fun blk =>
      let (i, j) := binarySearchPartition minV maxV (blk * bs) ak bk
      kernelBlockKV ak av bk bv bs i j).take (ak.length + bk.length)

/-- `merge_sort_split` (_merge.py:57-106) in terms of a merge backend producing the (key, index)
list: keys and values of the first `len(ak)` and of the remaining positions. -/
def mergeSortSplitWith (backend : List K → List K → List (K × Nat))
    (ak : List K) (av : List V) (bk : List K) (bv : List V) :
    (List K × List (Option V)) × (List K × List (Option V)) :=
  let s := backend ak bk
  let keys := s.map Prod.fst
  let vals := gatherSortedValues av bv (s.map Prod.snd)
  let n := ak.length
  ((keys.take n, vals.take n), (keys.drop n, vals.drop n))

/-- Pair-level view used by the BGPQ model: stable sort of the concatenated (key, value) pairs, split
after the length of the first block.  `mergeSortSplitWith` is shown equal to it for every backend
(theorem `merge_sort_split_pairs`). -/
def mergeSplit (a b : List (K × V)) : List (K × V) × List (K × V) :=
  let s := sortKeyVal (a ++ b)
  (s.take a.length, s.drop a.length)

end MergeModel
