import Verif.UniqueModel

/-!
# `xnp.unique_mask` with arguments of every kind (C87)

`optimized_unique_ops.py` in `xtructure/core/xtructure_numpy/dataclass_ops/unique_ops`.  `UniqueModel` takes the arguments most calls have; here `key_fn` may return integers or
floats of any dtype, `key` may contain NaN or be an integer array, `filled` and `batch_len` may have another length than the batch, `fill_value` may be negative.
-/

namespace Unique

open Jax SortGroup Dedupe

/-- The dtype of the values of `key_fn`. -/
class ColTy (C : Type u) where
  /-- The order of `jnp.argsort`: numbers, then NaN. -/
  le : C → C → Bool
  isNaN : C → Bool
  /-- `iinfo(dtype).max` or `finfo(dtype).max` (optimized_unique_ops.py:160-166). -/
  maxVal : C
  /-- `astype(uint64)` (`true`) or `astype(uint32)` (optimized_unique_ops.py:29-38, 47-61). -/
  word : Bool → C → Nat

/-- `a == b` of the dtype: false on NaN. -/
def ColTy.eq {C : Type u} [ColTy C] (a b : C) : Bool := !ColTy.isNaN a && !ColTy.isNaN b && ColTy.le a b && ColTy.le b a

/-- Assumptions on a dtype: comparison is a total preorder in which NaN is equivalent to NaN only. -/
class LawfulCol (C : Type u) extends ColTy C where
  trans : ∀ a b c : C, le a b = true → le b c = true → le a c = true
  total : ∀ a b : C, (le a b || le b a) = true
  nan_eqv : ∀ a b : C, le a b = true → le b a = true → isNaN a = isNaN b
  max_num : isNaN maxVal = false
  /-- Equal numbers are converted to equal words. -/
  word_eq : ∀ x64 a b, le a b = true → le b a = true → isNaN b = false → word x64 a = word x64 b

/-- `uint32`. -/
instance : LawfulCol Nat where
  le a b := decide (a ≤ b)
  isNaN _ := false
  maxVal := 2 ^ 32 - 1
  word _ a := a
  trans := by intro a b c; simp; omega
  total := by intro a b; simp; omega
  nan_eqv := by intros; rfl
  max_num := rfl
  word_eq := by
    intro x64 a b h1 h2 _
    have : a = b := by simp at h1 h2; omega
    rw [this]

/-- `int32`. -/
instance : LawfulCol Int where
  le a b := decide (a ≤ b)
  isNaN _ := false
  maxVal := 2 ^ 31 - 1
  word x64 z := (z % (if x64 then 2 ^ 64 else 2 ^ 32)).toNat
  trans := by intro a b c; simp; omega
  total := by intro a b; simp; omega
  nan_eqv := by intros; rfl
  max_num := rfl
  word_eq := by
    intro x64 a b h1 h2 _
    have : a = b := by simp at h1 h2; omega
    rw [this]

variable {C : Type v} [Inhabited C] [ColTy C] {K : Type u} [KeyTop K]

/-- Number of columns that are not hashed (optimized_unique_ops.py:23). -/
def direct (x64 : Bool) : Nat := if x64 then 2 else 4

/-- A masked column that is not hashed (optimized_unique_ops.py:24-25, 158-167). -/
def cell (rows : List (List C)) (eff : Nat → Bool) (c i : Nat) : C :=
  if eff i then (rows.getD i []).getD c default else ColTy.maxVal

/-- The masked columns (optimized_unique_ops.py:14-68, 158-167), each as the order the sort uses and the equality of `h[1:] != h[:-1]` (line 191). -/
def columnsC (x64 : Bool) (k : Nat) (rows : List (List C)) (eff : Nat → Bool) : List ((Nat → Nat → Bool) × (Nat → Nat → Bool)) :=
  if k ≤ direct x64 then
    (List.range k).map fun c => (fun i j => ColTy.le (cell rows eff c i) (cell rows eff c j), fun i j => ColTy.eq (cell rows eff c i) (cell rows eff c j))
  else
    (List.range (wideCols x64 k)).map fun c =>
      let col := column x64 k (rows.map fun r => r.map (ColTy.word x64)) eff c
      (leBy col, fun i j => col i == col j)

/-- A `key` argument. -/
inductive KeyArg (K : Type u) where
  | none
  /-- A float array, `none` is NaN. -/
  | float (ks : List (Option K))
  /-- An integer array. -/
  | int (ks : List Int)

/-- `len(key)`. -/
def KeyArg.length : KeyArg K → Option Nat
  | .none => Option.none
  | .float ks => some ks.length
  | .int ks => some ks.length

/-- `key < inf`, false on NaN. -/
def belowInf : Option K → Bool
  | some k => !KeyCmp.le KeyPad.inf k
  | Option.none => false

/-- The order of `jnp.argsort` on keys: NaN last. -/
def leNaN : Option K → Option K → Bool
  | _, Option.none => true
  | Option.none, some _ => false
  | some a, some b => KeyCmp.le a b

/-- A `filled` mask of length 1 is broadcast (optimized_unique_ops.py:156, 167). -/
def bcastFilled (b : Nat) (f : List Bool) : List Bool := if f.length = 1 then List.replicate b (f.getD 0 false) else f

/-- `effective_filled` (optimized_unique_ops.py:146-156). -/
def effectiveC (filled : Option (List Bool)) (key : Option (List (Option K))) (i : Nat) : Bool :=
  (match filled with | Option.none => true | some f => f.getD i false) &&
  (match key with | Option.none => true | some ks => belowInf (ks.getD i Option.none))

/-- `valid_key` (optimized_unique_ops.py:177-179). -/
def validKeyC (eff : Nat → Bool) (ks : List (Option K)) (i : Nat) : Option K := if eff i then ks.getD i Option.none else some KeyPad.inf

/-- The sort (optimized_unique_ops.py:169-185). -/
def orderC (n : Nat) (cols : List ((Nat → Nat → Bool) × (Nat → Nat → Bool))) (eff : Nat → Bool) (key : Option (List (Option K))) : List Nat :=
  let perm := List.range n
  let perm := match key with
    | Option.none => perm
    | some ks => stableSort (fun i j => leNaN (validKeyC eff ks i) (validKeyC eff ks j)) perm
  sortPasses (cols.map Prod.fst) perm

/-- Results of `unique_mask`. -/
structure ResultC where
  mask : List Bool
  index : List Int
  inverse : List Int

/-- `unique_indices` (optimized_unique_ops.py:209-246); `size = none` is the eager path, `jit` without `size` takes `size = batch_len` and by default `fill_value = batch_len`. -/
def indexC (jit : Bool) (perm : List Nat) (m : List Bool) (b : Nat) (size : Option Nat) (fill : Option Int) : List Int :=
  let static := fun (sz : Nat) (f : Int) => (nonzero m sz b).map fun q => (perm.map Int.ofNat ++ [f]).getD q 0
  match size with
  | some sz => static sz (fill.getD 0)
  | Option.none => if jit then static b (fill.getD b) else (compress perm m).map Int.ofNat

/-- Steps 2 to 8 and the results (optimized_unique_ops.py:143-253) for `b` entries with `k` key columns. -/
def coreC (x64 jit : Bool) (b k : Nat) (rows : List (List C)) (key : Option (List (Option K))) (filled : Option (List Bool)) (size : Option Nat) (fill : Option Int) : ResultC :=
  let eff := effectiveC filled key
  let cols := columnsC x64 k rows eff
  let perm := orderC b cols eff key
  let starts := groupStarts (fun i j => cols.all fun c => c.2 i j) perm                            -- 187-196
  let maskSorted := tab b fun p => starts.getD p false && eff (perm.getD p 0)                      -- 199-200
  let gid := (cumsum 0 (maskSorted.map Bool.toNat)).map fun (x : Nat) => (x : Int) - 1             -- 249
  ⟨scatterSet (List.replicate b false) perm maskSorted, indexC jit perm maskSorted b size fill, scatterSet (List.replicate b (0 : Int)) perm gid⟩

/-- `keys.reshape((b, -1))` (optimized_unique_ops.py:141) into rows of `m` values. -/
def regroup {C : Type v} (b m : Nat) (rows : List (List C)) : List (List C) := (List.range b).map fun i => (rows.flatten.drop (i * m)).take m

/-- Values of an `int32` (optimized_unique_ops.py:241-243: `jnp.array([fill_value], dtype=jnp.int32)` raises outside). -/
def isInt32 (z : Int) : Bool := decide (-2 ^ 31 ≤ z) && decide (z < 2 ^ 31)

/-- The `fill_value` that is converted (optimized_unique_ops.py:209-243), if the static path is taken. -/
def fillUsed (jit : Bool) (b : Nat) (size : Option Nat) (fill : Option Int) : Option Int :=
  match size with
  | some _ => some (fill.getD 0)
  | Option.none => if jit then some (fill.getD b) else Option.none

/-- `unique_mask(val, key, filled, key_fn, batch_len, return_index=True, return_inverse=True, size, fill_value)` (optimized_unique_ops.py:71-253) for a batch of `n` items with `k`
key values each; `none`: an exception.  `xnp.unique_mask` (core/xtructure_numpy/__init__.py:196-213) has no `size` and `fill_value` and is this with `none` for both.
`jnp.array(jnp.inf, dtype=int)` raises (NumPy: `OverflowError`), so an integer `key` raises.  Not modelled: batches of 2^31 entries and more, a negative `batch_len` or `size`, a `key` or
`filled` that is not one-dimensional, boolean key columns (`iinfo(bool)` raises). -/
def uniqueCall (x64 jit : Bool) (n k : Nat) (rows : List (List C)) (key : KeyArg K) (filled : Option (List Bool)) (batchLen : Option Nat) (size : Option Nat) (fill : Option Int) :
    Option ResultC :=
  let b := batchLen.getD n                                                                        -- 122-125
  if b = 0 then some ⟨[], [], []⟩                                                                 -- 127-136
  else if key.length.any (· ≠ b) then Option.none                                                 -- 138-139
  else if n * k % b ≠ 0 then Option.none                                                          -- 141
  else if n * k / b = 0 then Option.none                                                          -- 192
  else if filled.any fun f => f.length ≠ b ∧ f.length ≠ 1 then Option.none                        -- 156 or 167
  else if (fillUsed jit b size fill).any fun f => !isInt32 f then Option.none                     -- 241-243
  else
    match key with
    | .int _ => Option.none                                                                       -- 155
    | .none => some (coreC (K := K) x64 jit b (n * k / b) (regroup b (n * k / b) rows) Option.none (filled.map (bcastFilled b)) size fill)
    | .float ks => some (coreC x64 jit b (n * k / b) (regroup b (n * k / b) rows) (some ks) (filled.map (bcastFilled b)) size fill)

end Unique
