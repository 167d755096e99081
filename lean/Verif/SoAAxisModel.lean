import Verif.SoAModel
import Verif.SoAEq

/-!
# Model of the remaining axis operations of `xtructure/core/xtructure_numpy/dataclass_ops/`

`shape_ops.py:159-256`, `spatial_ops.py`, `batch_ops.py:210-249, 272-301`, `comparison_ops.py`, `fill_ops.py`, `type_ops.py:13-28`.  Each of them maps one
`jnp` function over the fields; the first part of the file gives these `jnp` functions (trusted to be JAX's), the second part the mapping.  `none` is an
exception; dtypes are left out.
-/

namespace NArr

variable {α : Type} [Inhabited α]

/-- `jnp.ravel`. -/
def flat (a : NArr α) : NArr α := ⟨[size a.shape], a.data⟩

/-- Normalised axes without repetition, as `jnp.flip`, `jnp.squeeze`, `jnp.moveaxis` require. -/
def normAxes (axes : List Int) (nd : Nat) : Option (List Nat) :=
  (axes.mapM fun ax => normAxis ax nd).bind fun ks => if ks.Nodup then some ks else none

/-- Reversal along the axes `ks` (`lax.rev`). -/
def rev (a : NArr α) (ks : List Nat) : NArr α :=
  ofFn a.shape fun i => a.get ((List.range a.shape.length).map fun ax =>
    if ax ∈ ks then a.shape.getD ax 0 - 1 - i.getD ax 0 else i.getD ax 0)

/-- `jnp.flip(a, axis)`; `none`: all axes. -/
def flip (a : NArr α) (axes : Option (List Int)) : Option (NArr α) :=
  match axes with
  | none => some (rev a (List.range a.shape.length))
  | some l => (normAxes l a.shape.length).map (rev a)

/-- New length `d'` along an axis, position `p` taken from position `f p`. -/
def mapAxis (a : NArr α) (ax d' : Nat) (f : Nat → Nat) : NArr α :=
  ofFn (a.shape.set ax d') fun i => a.get (i.set ax (f (i.getD ax 0)))

/-- One shift of `jnp.roll`. -/
def roll1 (a : NArr α) (shift : Int) (axis : Int) : Option (NArr α) :=
  (normAxis axis a.shape.length).map fun ax =>
    mapAxis a ax (a.shape.getD ax 0) fun p => (((p : Int) - shift) % (a.shape.getD ax 0 : Int)).toNat

/-- `np.broadcast` of two one-dimensional arguments. -/
def pairUp (s : List Int) (t : List Int) : Option (List (Int × Int)) :=
  if s.length = t.length then some (s.zip t)
  else if s.length = 1 then some (t.map fun y => (s.getD 0 0, y))
  else if t.length = 1 then some (s.map fun x => (x, t.getD 0 0))
  else none

/-- `jnp.roll(a, shifts, axes)` (an integer is a list of length 1); axis `none`: on the flattened array. -/
def roll (a : NArr α) (shifts : List Int) (axes : Option (List Int)) : Option (NArr α) :=
  match axes with
  | some l => (pairUp shifts l).bind fun ps => ps.foldlM (fun a p => roll1 a p.1 p.2) a
  | none => (pairUp shifts [0]).bind fun ps => (ps.foldlM (fun a p => roll1 a p.1 p.2) (flat a)).map fun z => ⟨a.shape, z.data⟩

/-- The `repeats` argument: one number, or one per entry. -/
inductive Repeats where
  | all (n : Nat)
  | each (l : List Nat)

/-- `jnp.repeat(a, repeats, axis)`; axis `none`: on the flattened array.  Negative repeats are not modelled. -/
def repeatAxis (a : NArr α) (how : Repeats) (axis : Option Int) : Option (NArr α) :=
  let a' := if axis.isNone then flat a else a
  (normAxis (axis.getD 0) a'.shape.length).bind fun ax =>
    let d := a'.shape.getD ax 0
    match how with
    | .all n => some (mapAxis a' ax (d * n) fun p => p / n)
    | .each l =>
      let l := if l.length = 1 then List.replicate d (l.getD 0 0) else l
      if l.length = d then some (mapAxis a' ax l.sum fun p => (locate l p).1) else none

/-- The entries of `l` at the positions that are not in `ks`. -/
def dropAxes (ks l : List Nat) : List Nat := (l.zipIdx.filter fun p => !ks.contains p.2).map (·.1)

/-- `jnp.squeeze(a, axis)`; `none`: all axes of length 1. -/
def squeeze (a : NArr α) (axes : Option (List Int)) : Option (NArr α) :=
  match axes with
  | none => some ⟨a.shape.filter (· ≠ 1), a.data⟩
  | some l => (normAxes l a.shape.length).bind fun ks =>
    if ks.all fun k => a.shape.getD k 0 == 1 then some ⟨dropAxes ks a.shape, a.data⟩ else none

/-- Insertion sort by destination (`sorted(zip(destination, source))`; destinations are distinct). -/
def insertDest (p : Nat × Nat) : List (Nat × Nat) → List (Nat × Nat)
  | [] => [p]
  | q :: l => if p.1 ≤ q.1 then p :: q :: l else q :: insertDest p l

/-- The axis order of `jnp.moveaxis`. -/
def moveOrder (nd : Nat) (source destination : List Nat) : List Nat :=
  ((destination.zip source).foldr insertDest []).foldl (fun o p => o.insertIdx p.1 p.2) ((List.range nd).filter fun i => !source.contains i)

/-- `jnp.moveaxis(a, source, destination)` (an integer is a list of length 1). -/
def moveaxis (a : NArr α) (source destination : List Int) : Option (NArr α) :=
  (normAxes source a.shape.length).bind fun s => (normAxes destination a.shape.length).bind fun d =>
    if s.length = d.length then transpose a ((moveOrder a.shape.length s d).map Int.ofNat) else none

/-- `jnp.rot90(a, k, axes)`. -/
def rot90 (a : NArr α) (k : Int) (ax1 ax2 : Int) : Option (NArr α) :=
  (normAxis ax1 a.shape.length).bind fun p => (normAxis ax2 a.shape.length).bind fun q =>
    if p = q then none
    else if k % 4 = 0 then some a
    else if k % 4 = 2 then some (rev (rev a [p]) [q])
    else if k % 4 = 1 then swapaxes (rev a [q]) p q
    else (swapaxes a p q).map fun z => rev z [q]

/-- `jnp.take_along_axis(a, inds, axis)` with an index array of the rank of `a` and the shape of the result; out-of-range indices give a fill value.
On an axis of length 0 not modelled. -/
def takeAlong (oob : α) (a : NArr α) (inds : NArr Int) (ax : Nat) : NArr α :=
  ofFn inds.shape fun i =>
    let v := wrapIdx (a.shape.getD ax 0) (inds.get i)
    if 0 ≤ v ∧ v < a.shape.getD ax 0 then a.get (i.set ax v.toNat) else oob

/-- `jnp.tile(a, reps)`: shape and repetitions are extended by ones on the left to the same length. -/
def tile (a : NArr α) (reps : List Nat) : NArr α :=
  let n := max a.shape.length reps.length
  let s := List.replicate (n - a.shape.length) 1 ++ a.shape
  let t := List.replicate (n - reps.length) 1 ++ reps
  ofFn (List.zipWith (· * ·) s t) fun i => a.get ((List.zipWith (· % ·) i s).drop (n - a.shape.length))

/-- `jnp.atleast_1d`. -/
def atleast1d (a : NArr α) : NArr α := if a.shape.length = 0 then ⟨[1], a.data⟩ else a

/-- `jnp.atleast_2d`. -/
def atleast2d (a : NArr α) : NArr α :=
  match a.shape with
  | [] => ⟨[1, 1], a.data⟩
  | [n] => ⟨[1, n], a.data⟩
  | _ => a

/-- `jnp.atleast_3d`. -/
def atleast3d (a : NArr α) : NArr α :=
  match a.shape with
  | [] => ⟨[1, 1, 1], a.data⟩
  | [n] => ⟨[1, n, 1], a.data⟩
  | [m, n] => ⟨[m, n, 1], a.data⟩
  | _ => a

/-- `jnp.vstack`. -/
def vstack (as : List (NArr α)) : Option (NArr α) := concatenate (as.map atleast2d) 0

/-- `jnp.hstack`: along axis 0 if the first array is one-dimensional, else along axis 1. -/
def hstack (as : List (NArr α)) : Option (NArr α) :=
  let as' := as.map atleast1d
  concatenate as' (if (as'.getD 0 default).shape.length = 1 then 0 else 1)

/-- `jnp.dstack`. -/
def dstack (as : List (NArr α)) : Option (NArr α) := concatenate (as.map atleast3d) 2

/-- `jnp.column_stack`: arrays of rank less than 2 become columns. -/
def columnStack (as : List (NArr α)) : Option (NArr α) :=
  concatenate (as.map fun a => match a.shape with | [] => ⟨[1, 1], a.data⟩ | [n] => ⟨[n, 1], a.data⟩ | _ => a) 1

/-- An entrywise function of two arrays, with broadcasting (`jnp.equal`, `jnp.not_equal`, `jnp.isclose`). -/
def entrywise {β γ : Type} [Inhabited β] (f : α → β → γ) (a : NArr α) (b : NArr β) : Option (NArr γ) :=
  (SoA.bcast2 a.shape b.shape).map fun u => ofFn u fun i => f (a.get (bcastSrc a.shape i)) (b.get (bcastSrc b.shape i))

/-- An entrywise function of one array (`jnp.astype`). -/
def mapEntries {γ : Type} (f : α → γ) (a : NArr α) : NArr γ := ofFn a.shape fun i => f (a.get i)

/-- `jnp.broadcast_shapes` of several shapes. -/
def bcastAll (ss : List (List Nat)) : Option (List Nat) := ss.foldlM SoA.bcast2 []

/-- `jnp.broadcast_arrays`. -/
def broadcastArrays (as : List (NArr α)) : Option (List (NArr α)) :=
  (bcastAll (as.map (·.shape))).bind fun u => as.mapM fun a => broadcastTo a u

end NArr

namespace SoA

open Agg NArr

variable {α : Type} [Inhabited α]

/-! ## shape_ops.py -/

/-- `expand_dims` (shape_ops.py:159-163). -/
def expandDims (x : Tree α) (axis : Int) : Option (Tree α) := treeMapM (fun a => a.expandDims axis) x

/-- `squeeze` (shape_ops.py:166-170). -/
def squeeze (x : Tree α) (axes : Option (List Int)) : Option (Tree α) := treeMapM (fun a => a.squeeze axes) x

/-- `repeat` (shape_ops.py:173-179). -/
def repeatInst (x : Tree α) (how : Repeats) (axis : Option Int) : Option (Tree α) := treeMapM (fun a => a.repeatAxis how axis) x

/-- `moveaxis` (shape_ops.py:182-190). -/
def moveaxis (x : Tree α) (source destination : List Int) : Option (Tree α) := treeMapM (fun a => a.moveaxis source destination) x

/-- `broadcast_to` (shape_ops.py:193-195). -/
def broadcastTo (x : Tree α) (shape : List Nat) : Option (Tree α) := treeMapM (fun a => a.broadcastTo shape) x

/-- `broadcast_arrays` (shape_ops.py:198-231): one tree of lists, turned into a list of trees. -/
def broadcastArrays (xs : List (Tree α)) : Option (List (Tree α)) :=
  match xs with
  | [] => some []
  | x :: ys => (transpose x ys).bind fun t => (treeMapM NArr.broadcastArrays t).map fun t' =>
    (List.range (ys.length + 1)).map fun k => treeMap (fun l => l.getD k default) t'

/-- `atleast_1d` of one instance (shape_ops.py:234-239). -/
def atleast1d (x : Tree α) : Tree α := treeMap NArr.atleast1d x

/-- `atleast_2d` of one instance (shape_ops.py:242-247). -/
def atleast2d (x : Tree α) : Tree α := treeMap NArr.atleast2d x

/-- `atleast_3d` of one instance (shape_ops.py:250-255). -/
def atleast3d (x : Tree α) : Tree α := treeMap NArr.atleast3d x

/-! ## spatial_ops.py -/

/-- `roll` (spatial_ops.py:13-19). -/
def roll (x : Tree α) (shifts : List Int) (axes : Option (List Int)) : Option (Tree α) := treeMapM (fun a => a.roll shifts axes) x

/-- `flip` (spatial_ops.py:22-27). -/
def flip (x : Tree α) (axes : Option (List Int)) : Option (Tree α) := treeMapM (fun a => a.flip axes) x

/-- `rot90` (spatial_ops.py:30-36). -/
def rot90 (x : Tree α) (k ax1 ax2 : Int) : Option (Tree α) := treeMapM (fun a => a.rot90 k ax1 ax2) x

/-! ## batch_ops.py -/

/-- One field of `take_along_axis` (batch_ops.py:214-240). -/
def takeAlongLeaf (oob : α) (inds : NArr Int) (axis : Int) (a : NArr α) : Option (NArr α) :=
  (normAxis axis a.shape.length).bind fun ax =>                                                  -- 215-219
    if a.shape.length < inds.shape.length then none                                              -- 221-225
    else
      let e : NArr Int := ⟨inds.shape ++ List.replicate (a.shape.length - inds.shape.length) 1, inds.data⟩    -- 227-229
      (NArr.broadcastTo e (a.shape.set ax (e.shape.getD ax 0))).map fun i => NArr.takeAlong oob a i ax        -- 231-240

/-- `take_along_axis` (batch_ops.py:210-242). -/
def takeAlongAxis (oob : α) (x : Tree α) (inds : NArr Int) (axis : Int) : Option (Tree α) := treeMapM (takeAlongLeaf oob inds axis) x

/-- `tile` (batch_ops.py:245-249; an integer is a list of length 1). -/
def tile (x : Tree α) (reps : List Nat) : Tree α := treeMap (fun a => a.tile reps) x

/-- `vstack` (batch_ops.py:272-281). -/
def vstack (xs : List (Tree α)) : Option (Tree α) :=
  match xs with
  | [] => none
  | x :: ys => treeMapN NArr.vstack x ys

/-- `hstack` (batch_ops.py:284-286). -/
def hstack (xs : List (Tree α)) : Option (Tree α) :=
  match xs with
  | [] => none
  | x :: ys => treeMapN NArr.hstack x ys

/-- `dstack` (batch_ops.py:289-291). -/
def dstack (xs : List (Tree α)) : Option (Tree α) :=
  match xs with
  | [] => none
  | x :: ys => treeMapN NArr.dstack x ys

/-- `column_stack` (batch_ops.py:294-296). -/
def columnStack (xs : List (Tree α)) : Option (Tree α) :=
  match xs with
  | [] => none
  | x :: ys => treeMapN NArr.columnStack x ys

/-! ## comparison_ops.py, fill_ops.py, type_ops.py -/

/-- `equal`, `not_equal`, `isclose` (comparison_ops.py:13-35), for the comparison `f` of two entries. -/
def compareInst (f : α → α → Bool) (x y : Tree α) : Option (Inst (NArr Bool)) :=
  (zip x y).bind (treeMapM fun p => entrywise f p.1 p.2)

/-- `allclose` (comparison_ops.py:38-67): `jnp.allclose` of a field is `jnp.all(jnp.isclose(…))`; the reduction starts from `True`. -/
def allclose (f : α → α → Bool) (x y : Tree α) : Option Bool :=
  (zip x y).bind fun z => (treeMapM (fun p => (entrywise f p.1 p.2).map fun m => m.data.all id) z).map fun t => (leaves t).foldl and true

/-- `full_like`, and `zeros_like`, `ones_like` with the constant 0 or 1 (fill_ops.py:13-27). -/
def fullLike (x : Tree α) (v : α) : Tree α := treeMap (fun a => ofFn a.shape fun _ => v) x

/-- `astype` (type_ops.py:13-28), for the conversion `f` of an entry. -/
def astype (f : α → α) (x : Tree α) : Tree α := treeMap (mapEntries f) x

end SoA
