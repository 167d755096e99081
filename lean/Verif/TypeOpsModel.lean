import Verif.SoAEq

/-!
# `can_cast` and `result_type` of dataclass instances

Model of `xtructure/core/xtructure_numpy/dataclass_ops/type_ops.py:28-73` and of the dispatch in
`xtructure/core/xtructure_numpy/__init__.py:465-474`.  Both functions only look at dtypes, so an instance is the tree of the dtypes of its fields.
`rule` is `np.can_cast` for one `casting` argument (`none`: an unknown casting rule, a `ValueError`), `rt` is `jnp.result_type`.  `none` is an
exception.

Simplifications: the classes of nested instances are not compared (fields of one class hold instances of one class); fields holding python scalars
are not modelled.
-/

namespace TypeOps

open Agg SoA

variable {D : Type}

/-- What the user passes beside an instance: something numpy reads as a dtype (a `dtype`, `jnp.float32`, `float`, an array), a numpy scalar type
such as `np.float32`, or an instance of the class `cls`. -/
inductive Arg (D : Type) where
  | dtype (d : D)
  | npType (d : D)
  | inst (cls : String) (x : Inst D)

/-- `_leaf_can_cast(f, t)` (type_ops.py:51-55) for a leaf of dtype `f`.  `np.float32` has an attribute `dtype`, a descriptor object that is no dtype,
so `jnp.can_cast` raises.  For an instance `t` the attribute is the named tuple of its field dtypes: `asDtype` is what numpy makes of it (usually a
`TypeError`; some two-field tuples are read as a dtype). -/
def leafCan (rule : Option (D → D → Bool)) (asDtype : Inst D → Option D) (f : D) : Arg D → Option Bool
  | .dtype d => rule.map fun can => can f d
  | .npType _ => none
  | .inst _ y => (asDtype y).bind fun d => rule.map fun can => can f d

/-- `jax.tree_util.tree_map(_leaf_can_cast, from_, to)` (type_ops.py:67): a `ValueError` unless `to` is an instance of the class of `from_`. -/
def leafwise (rule : Option (D → D → Bool)) (cls : String) (x : Inst D) : Arg D → Option (Inst Bool)
  | .inst cls' y => if cls' = cls then (SoA.zip x y).bind fun z => treeMapM (fun p => rule.map fun can => can p.1 p.2) z else none
  | _ => none

/-- The fallback: `to` at every leaf (type_ops.py:70-71). -/
def broadcasted (rule : Option (D → D → Bool)) (asDtype : Inst D → Option D) (x : Inst D) (t : Arg D) : Option (Inst Bool) :=
  treeMapM (fun f => leafCan rule asDtype f t) x

/-- `can_cast(from_, to, casting)` for an instance `from_` of the class `cls` (type_ops.py:41-73): `tree_reduce(and, …, True)` of the leafwise result,
or of the fallback when that raises. -/
def canCast (rule : Option (D → D → Bool)) (asDtype : Inst D → Option D) (cls : String) (x : Inst D) (t : Arg D) : Option Bool :=
  let r := match leafwise rule cls x t with
    | some b => some b
    | none => broadcasted rule asDtype x t
  r.map fun b => (leaves b).foldl and true

/-- The instances among the arguments when all are instances of the class `cls`. -/
def instancesOf (cls : String) : List (Arg D) → Option (List (Inst D))
  | [] => some []
  | .inst cls' y :: r => if cls' = cls then (instancesOf cls r).map fun ys => y :: ys else none
  | _ :: _ => none

/-- `result_type(*args)` when some argument is an instance (type_ops.py:28-38): `tree_map(jnp.result_type, *args)`.  With a dtype as first argument
`jnp.result_type` gets the whole instance, which raises. -/
def resultTypeInst (rt : List D → Option D) : List (Arg D) → Option (String × Inst D)
  | .inst cls x :: r => (instancesOf cls r).bind fun ys => (transpose x ys).bind fun t => (treeMapM rt t).map fun z => (cls, z)
  | _ => none

end TypeOps
