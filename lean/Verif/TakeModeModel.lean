import Verif.XnpModel

/-!
# `take` and `take_along_axis` with `mode` and `fill_value`

The public functions of `xtructure_numpy/__init__.py:127-175` on instances.  The `jnp` functions are trusted to be JAX's: `NArr.takeMode`
(`JnpModel`) and `NArr.alongMode` below.  The promises `unique_indices` and `indices_are_sorted`, the modes `"promise_in_bounds"` and
`"raise"`, and the value put at out-of-range positions when no `fill_value` is given (it depends on the dtype of the field) are left out.
-/

namespace NArr

variable {α : Type} [Inhabited α]

/-- The modes of `jnp.take_along_axis`; any other string raises. -/
inductive AlongMode where
  | fill
  | clip
  deriving DecidableEq

/-- The position read for the index `i` on an axis of length `d`; negative indices count from the end in both modes. -/
def AlongMode.pos : AlongMode → Nat → Int → Option Nat
  | .fill, d, i => if 0 ≤ wrapIdx d i ∧ wrapIdx d i < d then some (wrapIdx d i).toNat else none
  | .clip, d, i => some (min (wrapIdx d i).toNat (d - 1))

/-- `jnp.take_along_axis(a, inds, axis, mode=mode, fill_value=oob)`: the ranks must be equal, the other axes are broadcast against each
other.  On an axis of length 0 not modelled. -/
def alongMode (mode : AlongMode) (oob : α) (inds : NArr Int) (axis : Int) (a : NArr α) : Option (NArr α) :=
  (normAxis axis a.shape.length).bind fun ax =>
    if inds.shape.length ≠ a.shape.length then none
    else (SoA.bcast2 (a.shape.set ax 1) (inds.shape.set ax 1)).bind fun u =>
      (broadcastTo a (u.set ax (a.shape.getD ax 0))).bind fun a' =>
        (broadcastTo inds (u.set ax (inds.shape.getD ax 0))).map fun i' =>
          ofFn i'.shape fun j =>
            match mode.pos (a'.shape.getD ax 0) (i'.get j) with
            | some v => a'.get (j.set ax v)
            | none => oob

end NArr

namespace Xnp

open Agg NArr SoA

variable {α : Type} [Inhabited α]

/-- `take(a, indices, axis, mode=…, fill_value=…)` on an instance (__init__.py:127-150); `mode=None` is `fill`. -/
def takeModeTree (mode : TakeMode) (fill : α) (x : Tree α) (s : List Nat) (inds : List Int) (axis : Option Int) : Option (Tree α) :=
  match axis with
  | some k => treeMapM (fun a => NArr.takeMode mode fill a s inds k) x
  | none => treeMapM (fun a => NArr.takeMode mode fill (NArr.flat a) s inds 0) x

/-- `take_along_axis(arr, indices, axis, mode, fill_value)` on an instance (__init__.py:163-175); `oob`: the value used when no `fill_value`
is given.  Without an axis `jnp.take_along_axis` flattens every field and wants a one-dimensional index array; the function of
`dataclass_ops` compares `None >= 0` and raises (batch_ops.py:215). -/
def takeAlongTree (oob : α) (x : Tree α) (inds : NArr Int) (axis : Option Int) (mode : Option AlongMode) (fill : Option α) :
    Option (Tree α) :=
  if mode.isSome || fill.isSome then                                                                -- 165
    match axis with
    | some k => treeMapM (NArr.alongMode (mode.getD .fill) (fill.getD oob) inds k) x                 -- 166-171
    | none => treeMapM (fun a => NArr.alongMode (mode.getD .fill) (fill.getD oob) inds 0 (NArr.flat a)) x
  else
    match axis with
    | some k => SoA.takeAlongAxis oob x inds k                                                      -- 172
    | none => none

end Xnp
