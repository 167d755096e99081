import Verif.SoATree
import Verif.JnpModel
import Verif.UpdateModel

/-!
# Model of dataclass instances and their array operations

Files under `xtructure/core/`: `xtructure_decorators/{shape,default,indexing}.py`,
`xtructure_numpy/dataclass_ops/{batch_ops,shape_ops,logical_ops}.py`.

A class is its list of fields with intrinsic shapes and fill values; an instance is a tree of arrays (`Agg.Inst (NArr α)`, `α` the
union of all entry types; dtypes are left out, so are dtype promotions in `where`).  `none` is an exception.  The cached
`_shape_cache` is left out: an instance is immutable here.
-/

namespace SoA

open Agg NArr

variable {α : Type} [Inhabited α]

/-- Fields of a dataclass in declaration order: intrinsic shape and fill value (`jnp.full` broadcasts the result of
`fill_value_factory(shape)`, or the constant `fill_value`). -/
inductive Cls (α : Type) where
  | nil
  | leaf (name : String) (ish : List Nat) (fill : List Nat → NArr α) (rest : Cls α)
  | nested (name : String) (ish : List Nat) (sub rest : Cls α)

abbrev Tree (α : Type) := Inst (NArr α)

/-! ## shape.py -/

/-- `shape.batch`: a tuple, or -1. -/
inductive BShape where
  | tup (b : List Nat)
  | unstr
  deriving DecidableEq

/-- Batch shape suggested by one field with intrinsic shape `ish` (shape.py:92-99). -/
def fieldBatch (ish s : List Nat) : BShape :=
  if ish = [] then .tup s
  else if s.drop (s.length - ish.length) = ish then .tup (s.take (s.length - ish.length))
  else .unstr

/-- Batch shape suggested by a nested field (shape.py:82-90); `-1[-k:]` is a `TypeError`. -/
def nestedBatch (ish : List Nat) : BShape → Option BShape
  | .tup s => some (fieldBatch ish s)
  | .unstr => if ish = [] then some .unstr else none

/-- The loop over the batch shapes (shape.py:102-106); no fields: `()` (shape.py:53-56). -/
def finalBatch : List BShape → BShape
  | [] => .tup []
  | b :: bs => bs.foldl (fun fin x => if x = .unstr ∨ fin ≠ x then .unstr else fin) b

/-- The list `batch_shapes` (shape.py:58-100). -/
def fieldBatches : Cls α → Tree α → Option (List BShape)
  | .nil, .nil => some []
  | .leaf _ ish _ cr, .leaf _ a r => (fieldBatches cr r).map fun l => fieldBatch ish a.shape :: l
  | .nested _ ish cs cr, .nested _ x r =>
    (fieldBatches cs x).bind fun l => (nestedBatch ish (finalBatch l)).bind fun b => (fieldBatches cr r).map fun l' => b :: l'
  | _, _ => none

/-- `x.shape.batch`, `x.batch_shape` (shape.py:37-110, 171-172). -/
def batchShape (c : Cls α) (x : Tree α) : Option BShape := (fieldBatches c x).map finalBatch

/-- `StructuredType`. -/
inductive SType where
  | single
  | batched
  | unstructured
  deriving DecidableEq

/-- `x.structured_type` (shape.py:152-167). -/
def structuredType (c : Cls α) (x : Tree α) : Option SType :=
  (batchShape c x).map fun
    | .tup [] => .single
    | .tup (_ :: _) => .batched
    | .unstr => .unstructured

/-- `len(x)` (shape.py:131-148). -/
def len (c : Cls α) (x : Tree α) : Option Nat :=
  (batchShape c x).bind fun
    | .tup [] => some 1
    | .tup (d :: _) => some d
    | .unstr => none

/-- `x.ndim` (shape.py:176-187). -/
def ndim (c : Cls α) (x : Tree α) : Option Nat :=
  (batchShape c x).bind fun
    | .tup b => some b.length
    | .unstr => none

/-! ## default.py -/

/-- `cls.default(shape)` (default.py:143-174). -/
def defaultInst : Cls α → List Nat → Option (Tree α)
  | .nil, _ => some .nil
  | .leaf n ish fill rest, b =>
    (broadcastTo (fill (b ++ ish)) (b ++ ish)).bind fun a => (defaultInst rest b).map fun r => .leaf n a r
  | .nested n ish sub rest, b => (defaultInst sub (b ++ ish)).bind fun s => (defaultInst rest b).map fun r => .nested n s r

/-! ## indexing.py -/

/-- `x[index]` (indexing.py:185-200). -/
def getitem (x : Tree α) (I : Index) : Option (Tree α) := treeMapM (fun a => a.index I) x

/-- `x.at[index].set(v)` for an instance `v` of the class (indexing.py:34-74); a field that cannot be updated is kept
(indexing.py:70-72).  `ord`: the order in which the scatter of each field applies its updates. -/
def atSet (ord : List String → List (List Nat)) (I : Index) : List String → Tree α → Tree α → Tree α
  | pre, .leaf n a rest, .leaf _ w rest' =>
    .leaf n ((NArr.atSet (ord (pre ++ [n])) a I w).getD a) (atSet ord I pre rest rest')
  | pre, .nested n x rest, .nested _ v rest' => .nested n (atSet ord I (pre ++ [n]) x v) (atSet ord I pre rest rest')
  | _, x, _ => x

/-- `x.at[index].set(w)` for an array or scalar `w` (indexing.py:34-74): every field gets `w`. -/
def atSetRaw (ord : List String → List (List Nat)) (I : Index) (w : NArr α) : List String → Tree α → Tree α
  | _, .nil => .nil
  | pre, .leaf n a rest => .leaf n ((NArr.atSet (ord (pre ++ [n])) a I w).getD a) (atSetRaw ord I w pre rest)
  | pre, .nested n x rest => .nested n (atSetRaw ord I w (pre ++ [n]) x) (atSetRaw ord I w pre rest)

/-! ## batch_ops.py -/

/-- `jax.tree_util.tree_map(f, *xs)`. -/
def treeMapN (f : List (NArr α) → Option (NArr α)) (x : Tree α) (ys : List (Tree α)) : Option (Tree α) :=
  (SoA.transpose x ys).bind (treeMapM f)

/-- `stack` (batch_ops.py:172-200). -/
def stack (c : Cls α) (xs : List (Tree α)) (axis : Int) : Option (Tree α) :=
  match xs with
  | [] => none                                                                                  -- 174-175
  | [x] => treeMapM (fun a => a.expandDims axis) x                                               -- 177-180
  | x :: y :: ys =>
    (structuredType c x).bind fun t => ((y :: ys).mapM fun z => structuredType c z).bind fun ts =>
    if ts.all (· == t) then                                                                     -- 186-188
      if t = .batched ∧ ¬ (y :: ys).all fun z => batchShape c z == batchShape c x then none      -- 190-196
      else treeMapN (fun as => NArr.stack as axis) x (y :: ys)                                  -- 198-200
    else none

/-- The checks of `concat` on the batch shapes (batch_ops.py:66-85). -/
def concatChecks (axis : Int) (b0 : List Nat) (bs : List (List Nat)) : Bool :=
  let adj : Int := if axis ≥ 0 then axis else b0.length + axis
  decide (¬ adj ≥ b0.length) &&
  bs.all fun b => b.length == b0.length && (List.range b0.length).all fun (i : Nat) =>
    (i : Int) == adj || b0.getD i 0 == b.getD i 0

/-- `shape.batch` as a tuple. -/
def tupOf : BShape → Option (List Nat)
  | .tup b => some b
  | .unstr => none

/-- `concat` (batch_ops.py:46-93). -/
def concat (c : Cls α) (xs : List (Tree α)) (axis : Int) : Option (Tree α) :=
  match xs with
  | [] => none                                                                                  -- 48-49
  | [x] => some x                                                                               -- 51-52
  | x :: y :: ys =>
    (structuredType c x).bind fun t => ((y :: ys).mapM fun z => structuredType c z).bind fun ts =>
    if ts.all (· == t) then                                                                     -- 58-60
      match t with
      | .single => stack c (x :: y :: ys) axis                                                  -- 62-63
      | .batched =>                                                                             -- 65-89
        ((batchShape c x).bind tupOf).bind fun b0 => ((y :: ys).mapM fun z => (batchShape c z).bind tupOf).bind fun bs =>
        if concatChecks axis b0 bs then treeMapN (fun as => NArr.concatenate as axis) x (y :: ys) else none
      | .unstructured => none                                                                   -- 91-93
    else none

/-- The `pad_width` argument: an integer, a sequence of integers, a sequence of pairs. -/
inductive PadWidth where
  | int (n : Int)
  | ints (l : List Int)
  | pairs (l : List (Int × Int))

/-- `_normalize_pad_width` (batch_ops.py:16-43). -/
def normalizePad (w : PadWidth) (nd : Nat) : Option (List (Int × Int)) :=
  match w with
  | .int n => some (List.replicate nd (n, n))
  | .ints l =>
    if l.length = 0 then none
    else if l.length = 2 then some ((l.getD 0 0, l.getD 1 0) :: List.replicate (nd - 1) (0, 0))
    else if l.length ≠ nd then none
    else some (l.map fun x => (x, x))
  | .pairs l => if l.length = 0 then none else if l.length ≠ nd then none else some l

/-- `pad` with `mode="constant"` (batch_ops.py:96-169): `cv = none` pads with the class default (the `default`/`at.set` path),
`cv = some v` with the given `constant_values`.  Other modes are not modelled. -/
def pad (c : Cls α) (ord : List String → List (List Nat)) (x : Tree α) (w : PadWidth) (cv : Option α) : Option (Tree α) :=
  (batchShape c x).bind fun
    | .tup [] =>                                                                                -- 105-134
      (normalizePad w 1).bind fun ws =>
      if ws.any fun p => decide (p.1 < 0 ∨ p.2 < 0) then none
      else if ws.all fun p => decide (p.1 = 0 ∧ p.2 = 0) then some x
      else
        let p := ws.getD 0 (0, 0)
        match cv with
        | none => (defaultInst c [(1 + p.1 + p.2).toNat]).map fun d => atSet ord (.basic [.int p.1]) [] d x
        | some v => (treeMapM (fun a => a.expandDims 0) x).bind fun e => treeMapM (fun a =>
            padConst v a ((ws.map fun q => (q.1.toNat, q.2.toNat)) ++ List.replicate (a.shape.length - 1) (0, 0))) e
    | .tup b =>                                                                                 -- 136-167
      (normalizePad w b.length).bind fun ws =>
      if ws.any fun p => decide (p.1 < 0 ∨ p.2 < 0) then none
      else if ws.all fun p => decide (p.1 = 0 ∧ p.2 = 0) then some x
      else
        match cv with
        | none =>
          let target := List.zipWith (fun (d : Nat) (p : Int × Int) => ((d : Int) + p.1 + p.2).toNat) b ws
          let slices := List.zipWith (fun (d : Nat) (p : Int × Int) => Basic.slice (some p.1) (some (p.1 + d)) none) b ws
          (defaultInst c target).map fun d => atSet ord (.basic slices) [] d x
        | some v => treeMapM (fun a =>
            padConst v a ((ws.map fun q => (q.1.toNat, q.2.toNat)) ++ List.replicate (a.shape.length - b.length) (0, 0))) x
    | .unstr => none                                                                            -- 169

/-- `take` (batch_ops.py:203-207). -/
def take (oob : α) (x : Tree α) (s : List Nat) (inds : List Int) (axis : Int) : Option (Tree α) :=
  treeMapM (fun a => NArr.take oob a s inds axis) x

/-- `split` (batch_ops.py:253-269). -/
def split (x : Tree α) (how : Sections) (axis : Int) : Option (List (Tree α)) :=
  (treeMapM (fun a => NArr.split a how axis) x).map fun t =>
    match leaves t with
    | [] => []
    | l :: _ => (List.range l.length).map fun k => treeMap (fun parts => parts.getD k default) t

/-! ## logical_ops.py -/

/-- One field of `where` (logical_ops.py:18-50): condition and `y` broadcast to the shape of the field of `x`. -/
def whereLeaf (cond : NArr Bool) (a y : NArr α) : Option (NArr α) :=
  (broadcastTo cond a.shape).bind fun c => (broadcastTo y a.shape).map fun y' => whereSame c a y'

/-- `where(condition, x, y)` for an instance `y` (logical_ops.py:14-52). -/
def whereInst (cond : NArr Bool) (x y : Tree α) : Option (Tree α) := (zip x y).bind (treeMapM fun p => whereLeaf cond p.1 p.2)

/-- `where(condition, x, y)` for a scalar or array `y` (logical_ops.py:54-73). -/
def whereRaw (cond : NArr Bool) (x : Tree α) (y : NArr α) : Option (Tree α) := treeMapM (fun a => whereLeaf cond a y) x

/-- `_where_no_broadcast` (array_ops.py:89-116). -/
def whereStrict (cond : NArr Bool) (a b : NArr α) : Option (NArr α) :=
  if cond.shape ≠ a.shape then none else if a.shape ≠ b.shape then none else some (whereSame cond a b)

/-- `where_no_broadcast(condition, x, y)` with an array condition (logical_ops.py:76-112). -/
def whereNoBroadcast (cond : NArr Bool) (x y : Tree α) : Option (Tree α) := (zip x y).bind (treeMapM fun p => whereStrict cond p.1 p.2)

/-- `where_no_broadcast(condition, x, y)` with an instance of booleans as condition (logical_ops.py:87-105). -/
def whereNoBroadcastInst (cond : Inst (NArr Bool)) (x y : Tree α) : Option (Tree α) :=
  (zip x y).bind fun z => (zip cond z).bind (treeMapM fun p => whereStrict p.1 p.2.1 p.2.2)

/-- The rows of an array along its leading axis. -/
def rows (a : NArr α) : List (NArr α) := (List.range (a.shape.headD 0)).map fun i => sub [i] a

/-- The array with the given rows. -/
def ofRows (s : List Nat) (rs : List (NArr α)) : NArr α := ofFn s fun i => (rs.getD (i.headD 0) default).get i.tail

/-- `_update_array_on_condition` on an array with a leading axis (array_ops.py:36-86, see `UpdateModel`): the values are broadcast to one
row per update by the final scatter. -/
def updateLeaf (indices : List Int) (cond : List Bool) (ord : List Nat) (a v : NArr α) : Option (NArr α) :=
  if cond.length = 0 then some a                                                                -- 37-39
  else if a.shape = [] then none                                                                -- 49: `shape[0]`
  else (broadcastTo v (cond.length :: a.shape.tail)).bind fun v' =>
    (Update.update (rows a) indices cond (rows v') ord).map (ofRows a.shape)

/-- `update_on_condition` for an instance of values and one index array (logical_ops.py:115-132); `ord` as in `atSet`. -/
def updateOnCondition (ord : List String → List Nat) (indices : List Int) (cond : List Bool) :
    List String → Tree α → Tree α → Option (Tree α)
  | _, .nil, .nil => some .nil
  | pre, .leaf n a rest, .leaf n' v rest' =>
    if n = n' then (updateLeaf indices cond (ord (pre ++ [n])) a v).bind fun w =>
      (updateOnCondition ord indices cond pre rest rest').map fun r => .leaf n w r
    else none
  | pre, .nested n x rest, .nested n' v rest' =>
    if n = n' then (updateOnCondition ord indices cond (pre ++ [n]) x v).bind fun w =>
      (updateOnCondition ord indices cond pre rest rest').map fun r => .nested n w r
    else none
  | _, _, _ => none

/-- `x.at[indices].set_as_condition(condition, v)` for an instance `v` (indexing.py:76-150): a field that cannot be updated is kept. -/
def setAsCondition (ord : List String → List Nat) (indices : List Int) (cond : List Bool) : List String → Tree α → Tree α → Tree α
  | pre, .leaf n a rest, .leaf _ v rest' =>
    .leaf n ((updateLeaf indices cond (ord (pre ++ [n])) a v).getD a) (setAsCondition ord indices cond pre rest rest')
  | pre, .nested n x rest, .nested _ v rest' =>
    .nested n (setAsCondition ord indices cond (pre ++ [n]) x v) (setAsCondition ord indices cond pre rest rest')
  | _, x, _ => x

/-! ## shape_ops.py -/

/-- The new shape with -1 replaced (shape_ops.py:38-69); `none`: `ValueError`. -/
def inferShape (total : Nat) (new : List Int) : Option (List Int) :=
  let s : Option (List Int) :=
    if new.contains (-1) then
      if new.count (-1) > 1 then none                                                            -- 41-43
      else
        let p := (new.filter (· ≠ -1)).foldl (· * ·) 1                                           -- 45-48
        if p = 0 then none                                                                       -- 50-51
        else if (total : Int).fmod p ≠ 0 then none                                               -- 54-58
        else some (new.map fun d => if d = -1 then (total : Int).fdiv p else d)                  -- 53, 60-62
    else some new
  s.bind fun s => if s.foldl (· * ·) 1 = (total : Int) then some s else none                     -- 64-69

/-- `jnp.reshape` with a shape that may have negative entries (an exception; one -1 was already replaced). -/
def reshapeInt (a : NArr α) (s : List Int) (rest : List Nat) : Option (NArr α) :=
  if s.all (0 ≤ ·) then NArr.reshape a (s.map Int.toNat ++ rest) else none

/-- `reshape` (shape_ops.py:14-78). -/
def reshape (c : Cls α) (x : Tree α) (new : List Int) : Option (Tree α) :=
  (batchShape c x).bind fun
    | .tup (d :: b) =>
      (inferShape (size (d :: b)) new).bind fun s =>
        treeMapM (fun a => if a.shape.length < b.length + 1 then some a else reshapeInt a s (a.shape.drop (b.length + 1))) x
    | _ => none

/-- `flatten` (shape_ops.py:81-99). -/
def flatten (c : Cls α) (x : Tree α) : Option (Tree α) :=
  (batchShape c x).bind fun
    | .tup (d :: b) =>
      treeMapM (fun a => if a.shape.length < b.length + 1 then some a
        else NArr.reshape a (size (d :: b) :: a.shape.drop (b.length + 1))) x
    | _ => none

/-- `transpose` (shape_ops.py:102-124). -/
def transposeInst (c : Cls α) (x : Tree α) (axes : Option (List Int)) : Option (Tree α) :=
  (batchShape c x).bind fun
    | .tup b =>
      let axes := axes.getD ((List.range b.length).reverse.map Int.ofNat)
      treeMapM (fun a =>
        if a.shape.length < b.length then some a
        else if a.shape.length = b.length then NArr.transpose a axes
        else NArr.transpose a (axes ++ ((List.range (a.shape.length - b.length)).map fun (k : Nat) => ((b.length + k : Nat) : Int)))) x
    | .unstr => none

/-- `swapaxes` (shape_ops.py:127-156); an unstructured instance counts as one axis. -/
def swapaxes (c : Cls α) (x : Tree α) (ax1 ax2 : Int) : Option (Tree α) :=
  (batchShape c x).bind fun bs =>
    let nd : Nat := match bs with | .tup b => b.length | .unstr => 1
    (normAxis ax1 nd).bind fun p => (normAxis ax2 nd).bind fun q =>
      treeMapM (fun a => if a.shape.length < nd then some a else NArr.swapaxes a p q) x

end SoA
