import Verif.SoAScalarOps

/-!
# The dispatch layer `xtructure_numpy/__init__.py`

The public functions accept arrays as well as instances and choose between `jax.numpy` and the functions of
`dataclass_ops`.  A value is an array or an instance of the class number `cid`; `env` gives the fields of every class.
dtypes, devices and the arguments `copy`, `out_sharding` are left out.
-/

namespace Xnp

open Agg NArr SoA

variable {α : Type} [Inhabited α]

/-- An argument or a result. -/
inductive Val (α : Type) where
  | arr (a : NArr α)
  | inst (cid : Nat) (x : Tree α)

/-- What is raised: by the dispatch layer itself a `TypeError` or a `ValueError`; `raised`: by the function called. -/
inductive Err where
  | typeError
  | valueError
  | raised
  deriving DecidableEq

/-- `_is_xtructurable` (__init__.py:14-15). -/
def Val.isInst : Val α → Bool
  | .inst .. => true
  | .arr _ => false

/-- The result of a called function. -/
def ret {β γ : Type} (f : β → γ) : Option β → Except Err γ
  | some v => .ok (f v)
  | none => .error .raised

/-- `_check_homogeneous_inputs` (__init__.py:22-30). -/
def checkHomogeneous (args : List (Val α)) : Except Err Bool :=
  if args.isEmpty then .error .valueError
  else if args.any Val.isInst && !args.all Val.isInst then .error .typeError
  else .ok (args.all Val.isInst)

/-- The arrays among the arguments. -/
def arrays : List (Val α) → List (NArr α)
  | [] => []
  | .arr a :: l => a :: arrays l
  | .inst .. :: l => arrays l

/-- The instances among the arguments. -/
def insts : List (Val α) → List (Nat × Tree α)
  | [] => []
  | .arr _ :: l => insts l
  | .inst c x :: l => (c, x) :: insts l

/-- The functions of a list of values (__init__.py:42-65, 74-79, 381-406). -/
inductive ListFn where
  | concat (axis : Option Int)
  | concatenate (axis : Option Int)
  | stack (axis : Int)
  | vstack
  | hstack
  | dstack
  | columnStack

/-- `jnp.concatenate(as, axis)` with `axis=None`: all arrays are flattened first. -/
def concatAxis (axis : Option Int) (as : List (NArr α)) : Option (NArr α) :=
  match axis with
  | some k => NArr.concatenate as k
  | none => NArr.concatenate (as.map NArr.flat) 0

/-- The `jnp` function. -/
def ListFn.onArrays : ListFn → List (NArr α) → Option (NArr α)
  | .concat k, as => concatAxis k as
  | .concatenate k, as => concatAxis k as
  | .stack k, as => NArr.stack as k
  | .vstack, as => NArr.vstack as
  | .hstack, as => NArr.hstack as
  | .dstack, as => NArr.dstack as
  | .columnStack, as => NArr.columnStack as

/-- `tree_map(lambda *xs: jnp.concatenate(xs, axis=None), *arrays_list)` (__init__.py:45-49, 60-64), else `_dc.concat`. -/
def dcConcat (axis : Option Int) (c : Cls α) (xs : List (Tree α)) : Option (Tree α) :=
  match axis with
  | some k => SoA.concat c xs k
  | none => match xs with
    | [] => none
    | x :: ys => treeMapN (concatAxis none) x ys

/-- The function of `dataclass_ops`, for instances of one class. -/
def ListFn.onInsts : ListFn → Cls α → List (Tree α) → Option (Tree α)
  | .concat k, c, xs => dcConcat k c xs
  | .concatenate k, c, xs => dcConcat k c xs
  | .stack k, c, xs => SoA.stack c xs k
  | .vstack, _, xs => SoA.vstack xs
  | .hstack, _, xs => SoA.hstack xs
  | .dstack, _, xs => SoA.dstack xs
  | .columnStack, _, xs => SoA.columnStack xs

/-- All instances have the class of the first one (batch_ops.py:54-56, 182-184; `tree_map` raises otherwise). -/
def onSameClass (env : Nat → Cls α) (f : Cls α → List (Tree α) → Option (Tree α)) (l : List (Nat × Tree α)) : Except Err (Val α) :=
  match l with
  | [] => .error .raised
  | (c, x) :: l' =>
    if l'.all fun p => p.1 == c then ret (Val.inst c) (f (env c) (x :: l'.map Prod.snd)) else .error .raised

/-- `concat`, `concatenate`, `stack`, `vstack`, `hstack`, `dstack`, `column_stack` (lines as above). -/
def ListFn.call (env : Nat → Cls α) (fn : ListFn) (args : List (Val α)) : Except Err (Val α) :=
  match checkHomogeneous args with
  | .error e => .error e
  | .ok true => onSameClass env fn.onInsts (insts args)
  | .ok false => ret Val.arr (fn.onArrays (arrays args))

/-- `take(a, indices, axis)` with an index array of shape `s` and the other arguments left at their defaults
(__init__.py:127-160); `axis=None`: every field is flattened by `jnp.take`. -/
def takeTree (oob : α) (x : Tree α) (s : List Nat) (inds : List Int) (axis : Option Int) : Option (Tree α) :=
  match axis with
  | some k => SoA.take oob x s inds k
  | none => treeMapM (fun a => NArr.take oob (NArr.flat a) s inds 0) x

def take (oob : α) (v : Val α) (s : List Nat) (inds : List Int) (axis : Option Int) : Except Err (Val α) :=
  match v with
  | .inst c x => ret (Val.inst c) (takeTree oob x s inds axis)
  | .arr a => ret Val.arr (match axis with
    | some k => NArr.take oob a s inds k
    | none => NArr.take oob (NArr.flat a) s inds 0)

/-- `jnp.where(cond, x, y)` on arrays. -/
def whereArr (cond : NArr Bool) (a b : NArr α) : Option (NArr α) :=
  (NArr.bcastAll [cond.shape, a.shape, b.shape]).bind fun u =>
    (NArr.broadcastTo cond u).bind fun c => (NArr.broadcastTo a u).bind fun a' => (NArr.broadcastTo b u).map fun b' => whereSame c a' b'

/-- `where(cond, x, y)`, at least one of `x` and `y` given; `extra`: `size` or `fill_value` is given (__init__.py:105-120). -/
def «where» (cond : NArr Bool) (x y : Option (Val α)) (extra : Bool) : Except Err (Val α) :=
  if (x.map Val.isInst).getD false || (y.map Val.isInst).getD false then
    match x, y with
    | none, _ => .error .typeError                                                          -- 109-110
    | _, none => .error .typeError
    | some (.arr _), some _ => .error .typeError                                            -- 111-114
    | some (.inst c x), some (.inst c' y) =>
      if c ≠ c' then .error .typeError                                                      -- 115-117
      else if extra then .error .typeError                                                  -- 118
      else ret (Val.inst c) (SoA.whereInst cond x y)
    | some (.inst c x), some (.arr b) =>
      if extra then .error .typeError else ret (Val.inst c) (SoA.whereRaw cond x b)
  else
    match x, y with
    | some (.arr a), some (.arr b) => if extra then .error .raised else ret Val.arr (whereArr cond a b)
    | _, _ => .error .raised

/-- `update_on_condition(x, indices, condition, values)` (__init__.py:216-237); `upd` and `updRaw` are the functions of
`dataclass_ops` for an instance and an array of values, `updArr` the one on arrays. -/
def updateOnCondition (upd : Tree α → Tree α → Option (Tree α)) (updRaw : Tree α → NArr α → Option (Tree α))
    (updArr : NArr α → NArr α → Option (NArr α)) (x v : Val α) : Except Err (Val α) :=
  match x, v with
  | .inst c x, .inst c' v => if c ≠ c' then .error .typeError else ret (Val.inst c) (upd x v)
  | .inst c x, .arr b => ret (Val.inst c) (updRaw x b)
  | .arr _, .inst .. => .error .typeError
  | .arr a, .arr b => ret Val.arr (updArr a b)

end Xnp
