import Verif.BgpqWith
import Verif.MergeKV

/-!
# Settings of the BGPQ: environment variables, device and merge strategies (C82)

The environment is a map from names to strings.  `Py` stands for the Python functions `str.strip`, `str.lower` and `int(str)` (`none`: `ValueError`); nothing is
assumed about them.  The settings are read while tracing, and all branches of an operation are traced, so that an operation raises before anything is computed:
`insertCfg`, `deleteMinsCfg`.  Kept traces: `BgpqCacheModel`.
-/

namespace Bgpq

open MergeModel

structure Py where
  strip : String → String
  lower : String → String
  int : String → Option Int

abbrev Env := String → Option String

/-- `jax.default_backend()`. -/
inductive Device where
  | cpu
  | gpu
  | tpu
  deriving DecidableEq

inductive CfgErr where
  /-- `ValueError` of the code (or of `jnp.stack`/`jnp.concatenate` of nothing). -/
  | value
  /-- Pallas: a Triton kernel on another device, or with an array of size 0. -/
  | pallas
  deriving DecidableEq

section Parse

variable (py : Py) (env : Env)

/-- `_use_kv_backend` (_utils.py:13-30). -/
def useKvBackend (backend : String) (batchSize : Nat) : Except CfgErr Bool :=
  let backend := py.lower (py.strip backend)
  if backend ∈ ["", "off", "0", "false", "none"] then .ok false
  else if backend ∈ ["on", "true", "parallel", "pallas", "kv", "kv_parallel"] then .ok true
  else if backend ∈ ["auto", "kv_auto"] then
    match py.int ((env "XTRUCTURE_BGPQ_MERGE_VALUE_AUTO_MIN_BATCH").getD "0") with
    | none => .error .value
    | some t => .ok (decide (t > 0) && decide ((batchSize : Int) ≥ t))
  else .error .value

/-- `_parse_block_size_override` (parallel.py:21-36). -/
def parseBlockSizeOverride : Except CfgErr (Option Nat) :=
  match env "XTRUCTURE_BGPQ_MERGE_BLOCK_SIZE" with
  | none => .ok none
  | some v =>
    if py.lower (py.strip v) = "auto" then .ok none
    else match py.int v with
      | none => .error .value
      | some n => if n ≤ 0 then .error .value else .ok (some n.toNat)

/-- `_parse_unroll_max` (parallel.py:39-49).  Unrolling does not change the kernel. -/
def parseUnrollMax : Except CfgErr Nat :=
  match env "XTRUCTURE_BGPQ_MERGE_UNROLL_MAX" with
  | none => .ok 32
  | some v => match py.int v with
    | none => .error .value
    | some n => if n < 0 then .error .value else .ok n.toNat

/-- `_parse_triton_param` (parallel.py:52-64). -/
def parseTritonParam (name : String) : Except CfgErr (Option Nat) :=
  match env name with
  | none => .ok none
  | some v =>
    if py.lower (py.strip v) ∈ ["auto", "none", ""] then .ok none
    else match py.int v with
      | none => .error .value
      | some n => if n ≤ 0 then .error .value else .ok (some n.toNat)

/-- `_parse_value_packing` (parallel.py:67-74) and the choice of the mode of a leaf (parallel.py:423-431), given `scalar_max`. -/
def parseValuePacking : Except CfgErr (Nat → Nat → PackMode) :=
  let v := py.lower (py.strip ((env "XTRUCTURE_BGPQ_MERGE_VALUE_PACKING").getD "auto"))
  if v = "auto" then .ok autoMode
  else if v = "pad" then .ok fun _ _ => .pad
  else if v = "scalar" then .ok fun _ _ => .scalar
  else if v = "shard" then .ok fun _ _ => .shard
  else .error .value

/-- `_parse_value_scalar_max` (parallel.py:77-89); the default is the string of 16. -/
def parseValueScalarMax : Except CfgErr Nat :=
  match env "XTRUCTURE_BGPQ_MERGE_VALUE_SCALAR_MAX" with
  | none => .ok 16
  | some v => match py.int v with
    | none => .error .value
    | some n => if n ≤ 0 then .error .value else .ok n.toNat

/-- `_select_block_size` (parallel.py:92-103). -/
def selectBlockSize (dev : Device) (totalLen : Nat) : Except CfgErr Nat := do
  match ← parseBlockSizeOverride py env with
  | some b => .ok b
  | none => .ok (if dev ≠ .gpu then 64 else if totalLen ≤ 2 ^ 15 then 16 else 64)

/-- The settings of a kernel launch (parallel.py:361-364, 469-472): the block size (the others do not matter for the result). -/
def kernelConfig (dev : Device) (totalLen : Nat) : Except CfgErr Nat := do
  let bs ← selectBlockSize py env dev totalLen
  let _ ← parseUnrollMax py env
  let _ ← parseTritonParam py env "XTRUCTURE_BGPQ_MERGE_NUM_WARPS"
  let _ ← parseTritonParam py env "XTRUCTURE_BGPQ_MERGE_NUM_STAGES"
  .ok bs

/-- `merge_array_backend` (_constants.py:25-41, read on import): is it the parallel kernel? -/
def mergeArrayBackend (dev : Device) : Except CfgErr Bool :=
  let v := py.lower ((env "XTRUCTURE_BGPQ_MERGE_BACKEND").getD (if dev = .gpu then "parallel" else "sort"))
  if v ∈ ["sort", "xla"] then .ok false
  else if v ∈ ["parallel", "pallas"] then .ok true
  else .error .value

/-- The mode of `_gather_sorted_values` (_merge.py:22-32): by concatenation? -/
def valueReorder : Except CfgErr Bool :=
  let v := py.lower (py.strip ((env "XTRUCTURE_BGPQ_VALUE_REORDER").getD "gather"))
  if v ∈ ["concat", "concat_gather"] then .ok true
  else if v ∈ ["gather", "direct"] then .ok false
  else .error .value

end Parse

/-- How a merge is done: keys with indices (by sorting, or by the kernel with a block size), values gathered in one of two ways; or keys and values by the
kernel, the leaves of the values packed in the given modes. -/
inductive Strat where
  | idx (kernel : Option Nat) (concat : Bool)
  | kv (bs : Nat) (modes : List PackMode)

/-- Where a merge happens: `merge_sort_split` or `merge_buffer`; each has its own variable. -/
inductive Site where
  | sortsplit
  | buffer
  deriving DecidableEq

def Site.var : Site → String
  | .sortsplit => "XTRUCTURE_BGPQ_MERGE_VALUE_BACKEND_SORTSPLIT"
  | .buffer => "XTRUCTURE_BGPQ_MERGE_VALUE_BACKEND_BUFFER"

/-- `merge_arrays_parallel_kv` (parallel.py:371-502) for arrays of lengths `n` and `m` and values whose fields have `sizes` entries.  Arrays of size 0 are taken
to be refused by the kernel (there is no special case for them, unlike in `merge_arrays_parallel`). -/
def resolveKv (py : Py) (env : Env) (dev : Device) (sizes : List Nat) (n m : Nat) : Except CfgErr Strat := do
  let mode ← parseValuePacking py env
  let scalarMax ← parseValueScalarMax py env
  let bs ← kernelConfig py env dev (n + m)
  if n = 0 ∨ m = 0 then .error .pallas
  else if ∃ s ∈ sizes, s = 0 ∧ mode scalarMax s ≠ .pad then .error .value     -- stack / concatenate of no arrays, parallel.py:484, 491
  else .ok (.kv bs (sizes.map (mode scalarMax)))

/-- `merge_array_backend` and `_gather_sorted_values` (_merge.py:99-101, _insert.py:41-42); `merge_arrays_parallel` is parallel.py:347-368, its kernel (which is not
launched if an array is empty, parallel.py:266-276) needs a GPU. -/
def resolveIdx (py : Py) (env : Env) (dev : Device) (kernel : Bool) (n m : Nat) : Except CfgErr Strat := do
  if kernel then
    let bs ← kernelConfig py env dev (n + m)
    if n ≠ 0 ∧ m ≠ 0 ∧ dev ≠ .gpu then .error .pallas
    else
      let concat ← valueReorder py env
      .ok (.idx (some bs) concat)
  else
    let concat ← valueReorder py env
    .ok (.idx none concat)

/-- The choice of a strategy: _merge.py:78-101 and _insert.py:26-42. -/
def resolve (py : Py) (env : Env) (dev : Device) (site : Site) (sizes : List Nat) (n m : Nat) : Except CfgErr Strat := do
  let kernel ← mergeArrayBackend py env dev
  let backend := match env site.var with
    | some v => v
    | none => (env "XTRUCTURE_BGPQ_MERGE_VALUE_BACKEND").getD ""
  let kv ← useKvBackend py env backend n
  if kv ∧ dev = .gpu then resolveKv py env dev sizes n m else resolveIdx py env dev kernel n m

variable {K : Type u} [KeyCmp K] {E : Type v}

/-- Number of packed leaves of a leaf of `size` entries (parallel.py:436-467). -/
def pieceCount (mode : PackMode) (size : Nat) : Nat :=
  match mode with
  | .scalar => size
  | .shard => (shardSizes size).length
  | .pad => 1

/-- The packed leaves of one value, given by its fields (parallel.py:411-467). -/
def packVal (zero : E) (specs : List (PackMode × Nat)) (v : List (List E)) : List (List E) :=
  (specs.zip v).flatMap fun x => packRow zero x.1.1 x.1.2 x.2

/-- `restored_leaves` of one value (parallel.py:479-500): the pieces are consumed with a running offset. -/
def restoreVal : List (PackMode × Nat) → List (List E) → List (List E)
  | [], _ => []
  | (mode, size) :: specs, pieces =>
    restoreRow mode size (pieces.take (pieceCount mode size)) :: restoreVal specs (pieces.drop (pieceCount mode size))

/-- The merge of a strategy.  `minV`, `maxV` are the sentinels of `_get_sentinels`. -/
def Strat.merge (minV maxV : K) (zero : E) (sizes : List Nat) (s : Strat) (a b : List (K × List (List E))) : List (K × List (List E)) :=
  match s with
  | .idx kernel concat =>
    let m := match kernel with
      | none => mergeSortSplitIdx (a.map Prod.fst) (b.map Prod.fst)
      | some bs => mergeParallel minV maxV bs (a.map Prod.fst) (b.map Prod.fst)
    let vals := if concat then gatherSortedValuesConcat (a.map Prod.snd) (b.map Prod.snd) (m.map Prod.snd)
      else gatherSortedValues (a.map Prod.snd) (b.map Prod.snd) (m.map Prod.snd)
    (m.map Prod.fst).zip (vals.map fun v => v.getD [])
  | .kv bs modes =>
    let specs := modes.zip sizes
    (mergeParallelKV minV maxV bs (a.map Prod.fst) (a.map fun x => packVal zero specs x.2) (b.map Prod.fst)
      (b.map fun x => packVal zero specs x.2)).map fun x => (x.1, restoreVal specs x.2)

/-- The merge done at a site: the strategy for the lengths at hand (the settings were accepted when the operation was traced, so the second case does not occur). -/
def cfgMerge (py : Py) (env : Env) (dev : Device) (site : Site) (minV maxV : K) (zero : E) (sizes : List Nat)
    (a b : List (K × List (List E))) : List (K × List (List E)) :=
  match resolve py env dev site sizes a.length b.length with
  | .ok s => s.merge minV maxV zero sizes a b
  | .error _ => []

end Bgpq

namespace Bgpq

open MergeModel BgpqSpec

/-- Everything that is fixed while a queue is used: settings, device, sentinels and padding constant, entries per field of the values. -/
structure Setup (K : Type u) (E : Type v) where
  py : Py
  env : Env
  dev : Device
  minV : K
  maxV : K
  zero : E
  sizes : List Nat

variable {K : Type u} [KeyPad K] {E : Type v}

/-- The merge at a site. -/
def Setup.merge (c : Setup K E) (site : Site) (a b : List (K × List (List E))) : List (K × List (List E)) :=
  cfgMerge c.py c.env c.dev site c.minV c.maxV c.zero c.sizes a b

/-- The strategy chosen at a site for lengths `n`, `m`. -/
def Setup.resolve (c : Setup K E) (site : Site) (n m : Nat) : Except CfgErr Strat := Bgpq.resolve c.py c.env c.dev site c.sizes n m

/-- Tracing `BGPQ.insert` (_insert.py:195-221) meets `merge_sort_split` of two rows and the merge of a block with the buffer; tracing `BGPQ.delete_mins`
(_delete.py:201-225) meets `merge_sort_split` of a row with the buffer and of two rows. -/
def Setup.trace (c : Setup K E) (n : Nat) : Op K (List (List E)) → Except CfgErr Unit
  | .insert _ => do
    let _ ← c.resolve .sortsplit n n
    let _ ← c.resolve .buffer n (n - 1)
    .ok ()
  | .deleteMins => do
    let _ ← c.resolve .sortsplit n (n - 1)
    let _ ← c.resolve .sortsplit n n
    .ok ()

/-- One API call (as `Bgpq.step`). -/
def stepCfg (c : Setup K E) (h : Heap K (List (List E))) (op : Op K (List (List E))) : Except CfgErr (Option (Heap K (List (List E)) × Out K (List (List E)))) :=
  match c.trace h.batchSize op with
  | .error e => .error e
  | .ok _ =>
    match op with
    | .insert block =>
      let h' := insertWith (c.merge .sortsplit) (c.merge .buffer) h block
      .ok (some (h', ⟨none, h'.size⟩))
    | .deleteMins => .ok ((deleteMinsWith (c.merge .sortsplit) h).map fun x => (x.1, ⟨some x.2, x.1.size⟩))

/-- A history (as `Bgpq.run`). -/
def runCfg (c : Setup K E) (h : Heap K (List (List E))) :
    List (Op K (List (List E))) → Except CfgErr (Option (Heap K (List (List E)) × List (Out K (List (List E)))))
  | [] => .ok (some (h, []))
  | op :: ops =>
    match stepCfg c h op with
    | .error e => .error e
    | .ok none => .ok none
    | .ok (some x) =>
      match runCfg c x.1 ops with
      | .error e => .error e
      | .ok r => .ok (r.map fun y => (y.1, x.2 :: y.2))

end Bgpq
