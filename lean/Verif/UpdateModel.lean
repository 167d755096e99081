import Verif.DedupeLemmas

/-!
# Model of `_update_array_on_condition`, `xtructure/core/xtructure_numpy/array_ops.py`

`xs` is the array as the list of its rows along the leading axis (`ρ`: one row, of any shape).  `indices` are integers of any
signed or unsigned dtype able to hold the array length (the code casts the length to that dtype).  `values` has one row per
update; a value to be broadcast is passed already broadcast.
-/

namespace Update

open Jax SortGroup Dedupe

variable {ρ : Type u}

/-- `in_bounds` and `cond_valid` (array_ops.py:56-64): `0 <= index < n` and the condition. -/
def condValid (n : Nat) (indices : List Int) (cond : List Bool) (k : Nat) : Bool :=
  cond.getD k false && (decide (0 ≤ indices.getD k 0) && decide (indices.getD k 0 < n))

/-- `true_indices` (array_ops.py:66); `n` is the invalid index. -/
def trueIdx (n : Nat) (indices : List Int) (cond : List Bool) (k : Nat) : Nat :=
  if condValid n indices cond k then (indices.getD k 0).toNat else n

/-- `perm` (array_ops.py:69-70). -/
def perm (n : Nat) (indices : List Int) (cond : List Bool) (m : Nat) : List Nat :=
  sortPasses [leBy (trueIdx n indices cond)] (List.range m)

/-- `winners_sorted` (array_ops.py:72-79). -/
def winnersSorted (n : Nat) (indices : List Int) (cond : List Bool) (m : Nat) : List Bool :=
  let p := perm n indices cond m
  if m = 1 then tab 1 fun q => trueIdx n indices cond (p.getD q 0) != n
  else
    let isFirst := groupStarts (sameAll [leBy (trueIdx n indices cond)]) p
    tab m fun q => isFirst.getD q false && trueIdx n indices cond (p.getD q 0) != n

/-- `winners` (array_ops.py:82). -/
def winners (n : Nat) (indices : List Int) (cond : List Bool) (m : Nat) : List Bool :=
  scatterSet (List.replicate m false) (perm n indices cond m) (winnersSorted n indices cond m)

/-- `safe_indices` (array_ops.py:84). -/
def safeIdx (n : Nat) (indices : List Int) (cond : List Bool) (m k : Nat) : Nat :=
  if (winners n indices cond m).getD k false then (indices.getD k 0).toNat else n

/-- `.at[safe].set(values, mode="drop")` (array_ops.py:85-86) with the updates applied in the order `ord`: JAX does not specify which
update survives when targets repeat. -/
def scatterDrop (xs : List ρ) (safe : Nat → Nat) (values : Nat → Option ρ) (ord : List Nat) : List ρ :=
  ord.foldl (fun a k => match values k with | some v => a.set (safe k) v | none => a) xs

/-- `_update_array_on_condition` for one index array (array_ops.py:36-86).  `none`: `ValueError`. -/
def update (xs : List ρ) (indices : List Int) (cond : List Bool) (values : List ρ) (ord : List Nat) : Option (List ρ) :=
  if cond.length = 0 then some xs                                               -- 37-39
  else if cond.length ≠ indices.length then none                                -- 42-45
  else some (scatterDrop xs (safeIdx xs.length indices cond cond.length) (values[·]?) ord)

/-- `ravel_multi_index(indices, batch_shape, mode="clip")` (array_ops.py:29): every index is clipped into its axis. -/
def ravelClip : List Nat → List Int → Nat
  | d :: dims, i :: idx => (max 0 (min i (d - 1))).toNat * (dims.foldl (· * ·) 1) + ravelClip dims idx
  | _, _ => 0

/-- The tuple path (array_ops.py:21-34): `xs` is the array with its batch axes flattened, `indices` gives the index tuple of every
update. -/
def updateTuple (shape : List Nat) (xs : List ρ) (indices : List (List Int)) (cond : List Bool) (values : List ρ) (ord : List Nat) :
    Option (List ρ) :=
  update xs (indices.map fun t => (ravelClip shape t : Int)) cond values ord

end Update
