import Verif.DedupeLemmas
import Verif.AggModel

/-!
# Model of `xnp.unique_mask`, `xtructure/core/xtructure_numpy/dataclass_ops/unique_ops/optimized_unique_ops.py`

`rows` are the results of `key_fn` on the `n` items of the batch, flattened: one list of `k` unsigned 32-bit words per
item.  Keys are of a type with a greatest element `inf` (see `KeyOrd`).  Key functions returning floats or
signed integers, `NaN` and integer `key`s: see `UniqueArgsModel`.
-/

namespace Unique

open Jax SortGroup Dedupe

variable {K : Type u} [KeyTop K]

/-- One step of `_hash_to_wide_step_u64` (optimized_unique_ops.py:31-41). -/
def step64 (h : Nat × Nat) (col : Nat) : Nat × Nat :=
  ((h.1 * 0x9E3779B1 + col) % 2 ^ 64, (h.2 * 0x85EBCA6B + col) % 2 ^ 64)

/-- One step of `_hash_to_wide_step_u32` (optimized_unique_ops.py:56-65). -/
def step32 (h : Nat × Nat × Nat × Nat) (col : Nat) : Nat × Nat × Nat × Nat :=
  ((h.1 * 0x9E3779B1 + col) % 2 ^ 32, (h.2.1 * 0x85EBCA6B + col) % 2 ^ 32,
   ((h.2.2.1 ^^^ col) * 0xC2B2AE35) % 2 ^ 32, ((h.2.2.2 ^^^ col) * 0x278DDE6E) % 2 ^ 32)

/-- `_hash_to_wide` on one row (optimized_unique_ops.py:14-68); `x64` is `jax_enable_x64`. -/
def wide (x64 : Bool) (row : List Nat) : List Nat :=
  if row.length ≤ (if x64 then 2 else 4) then row                                 -- 23-25
  else if x64 then                                                               -- 27-44
    let h := row.tail.foldl step64 (row.getD 0 0, row.getD 0 0)
    [h.1, h.2]
  else                                                                           -- 45-68
    let c := row.getD 0 0
    let h := row.tail.foldl step32 (c, c, c, c)
    [h.1, h.2.1, h.2.2.1, h.2.2.2]

/-- Number of hash columns for rows of `k` words. -/
def wideCols (x64 : Bool) (k : Nat) : Nat :=
  if k ≤ (if x64 then 2 else 4) then k else if x64 then 2 else 4

/-- `iinfo(dtype).max` of the hash columns (optimized_unique_ops.py:160-162): `uint64` for hashed columns under x64, else
`uint32`. -/
def maxVal (x64 : Bool) (k : Nat) : Nat := if x64 ∧ 2 < k then 2 ^ 64 - 1 else 2 ^ 32 - 1

/-- `effective_filled` (optimized_unique_ops.py:146-156). -/
def effective (filled : Option (List Bool)) (key : Option (List K)) (i : Nat) : Bool :=
  (match filled with | none => true | some f => f.getD i false) &&
  (match key with | none => true | some ks => !KeyCmp.le KeyPad.inf (ks.getD i KeyPad.inf))

/-- Hash column `c` after masking (optimized_unique_ops.py:158-167). -/
def column (x64 : Bool) (k : Nat) (rows : List (List Nat)) (eff : Nat → Bool) (c i : Nat) : Nat :=
  if eff i then (wide x64 (rows.getD i [])).getD c 0 else maxVal x64 k

/-- `valid_key` (optimized_unique_ops.py:177-180). -/
def validKey (eff : Nat → Bool) (ks : List K) (i : Nat) : K := if eff i then ks.getD i KeyPad.inf else KeyPad.inf

/-- Comparison of the `key` pass. -/
def keyLe (eff : Nat → Bool) (ks : List K) (i j : Nat) : Bool := KeyCmp.le (validKey eff ks i) (validKey eff ks j)

/-- The hash passes. -/
def hashLes (x64 : Bool) (k : Nat) (rows : List (List Nat)) (eff : Nat → Bool) : List (Nat → Nat → Bool) :=
  (List.range (wideCols x64 k)).map fun c => leBy (column x64 k rows eff c)

/-- The sort (optimized_unique_ops.py:169-185): `perm`. -/
def order (x64 : Bool) (n k : Nat) (rows : List (List Nat)) (eff : Nat → Bool) (key : Option (List K)) : List Nat :=
  let perm := List.range n
  let perm := match key with
    | none => perm
    | some ks => stableSort (keyLe eff ks) perm
  sortPasses (hashLes x64 k rows eff) perm

/-- Results of `unique_mask`. -/
structure Result where
  mask : List Bool
  index : List Nat
  inverse : List Int

/-- `perm[mask_sorted]` (optimized_unique_ops.py:216). -/
def compress {α : Type} (xs : List α) (m : List Bool) : List α :=
  ((xs.zip m).filter Prod.snd).map Prod.fst

/-- `nonzero(mask_sorted, size=size, fill_value=sentinel)` (optimized_unique_ops.py:236-238). -/
def nonzero (m : List Bool) (size fill : Nat) : List Nat :=
  let ps := compress (List.range m.length) m
  ps.take size ++ List.replicate (size - ps.length) fill

/-- `perm_padded[valid_positions]` (optimized_unique_ops.py:230-244); `size = none` is the concrete path (216), which
under `jit` is replaced by `size = fill_value = batch_len` (221-226, see `uniqueMaskJit`). -/
def uniqueIndices (perm : List Nat) (m : List Bool) (n : Nat) (size : Option Nat) (fill : Option Nat) : List Nat :=
  match size with
  | none => compress perm m
  | some sz => (nonzero m sz n).map fun q => (perm ++ [fill.getD 0]).getD q 0

/-- `unique_mask` with `return_index=True, return_inverse=True` (optimized_unique_ops.py:71-253) for `n` items whose keys have `k` words.  `none`: an exception
(no hash column at all, line 192; wrong length of `key`, line 138).  For `batch_len` given explicitly and different from the
batch length, and a negative `fill_value`, see `uniqueCall`. -/
def uniqueMask (x64 : Bool) (n k : Nat) (rows : List (List Nat)) (key : Option (List K)) (filled : Option (List Bool))
    (size : Option Nat) (fill : Option Nat) : Option Result :=
  if n = 0 then some ⟨[], [], []⟩                                                 -- 127-136
  else if (match key with | none => false | some ks => ks.length ≠ n) then none  -- 138-139
  else if wideCols x64 k = 0 then none                                           -- 192
  else
    let eff := effective filled key
    let perm := order x64 n k rows eff key
    let same := sameAll (hashLes x64 k rows eff)
    let starts := groupStarts same perm                                          -- 187-196
    let maskSorted := tab n fun p => starts.getD p false && eff (perm.getD p 0)   -- 199-200
    let mask := scatterSet (List.replicate n false) perm maskSorted              -- 203
    let gid := (cumsum 0 (maskSorted.map Bool.toNat)).map fun (x : Nat) => (x : Int) - 1   -- 249
    let inv := scatterSet (List.replicate n (0 : Int)) perm gid                  -- 250
    some ⟨mask, uniqueIndices perm maskSorted n size fill, inv⟩

/-- The same under `jit` without `size` (optimized_unique_ops.py:217-229). -/
def uniqueMaskJit (x64 : Bool) (n k : Nat) (rows : List (List Nat)) (key : Option (List K)) (filled : Option (List Bool))
    (fill : Option Nat) : Option Result :=
  uniqueMask x64 n k rows key filled (some n) (some (fill.getD n))

/-- The default `key_fn` on one item (optimized_unique_ops.py:106-114): `.packed.words` for aggregate-packed classes. -/
def packedKey (p : Agg.PackedRow) : List Nat := p.words

end Unique
