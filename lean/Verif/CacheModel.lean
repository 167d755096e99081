import Verif.SoAModel
import Verif.IoModel

/-!
# Model of the metadata caches of an instance

`xtructure/core/xtructure_decorators/shape.py`: `shape`, `dtype` and `structured_type` are computed on the first read and kept in attributes of the
instance (`_shape_cache`, `_dtype_cache`, `_structured_type_cache`).  Instances are mutable Python objects and nested fields are references, so the
model is a heap of objects.  Of an array only its shape and dtype matter.  `none` is an exception; `n` (fuel) is the depth of the interpreter's stack.
-/

namespace Cache

open Io (DType)
open SoA (BShape SType fieldBatch nestedBatch finalBatch)

/-- The entries after `batch` of a shape namedtuple (shape.py:28): tuples and nested shape namedtuples. -/
inductive Meta where
  | nil
  | tup (s : List Nat) (rest : Meta)
  | node (batch : BShape) (sub rest : Meta)
  deriving DecidableEq

/-- `x.shape`: `shape(batch, …)`. -/
abbrev Sh := BShape × Meta

/-- `x.dtype`: a namedtuple (shape.py:114). -/
inductive Dt where
  | nil
  | leaf (t : DType) (rest : Dt)
  | node (sub rest : Dt)
  deriving DecidableEq

/-- The value of a field: an array, or another instance. -/
inductive Val where
  | arr (shape : List Nat) (dtype : DType)
  | ref (o : Nat)
  deriving DecidableEq

/-- An instance: the intrinsic shapes of its class, the values of its fields in the same order, and the three cache attributes. -/
structure Obj where
  ishs : List (List Nat)
  fields : List Val
  shapeC : Option Sh := none
  dtypeC : Option Dt := none
  stypeC : Option SType := none
  deriving DecidableEq

abbrev Heap := List Obj

/-- The entry of an array field in the shape tuple (shape.py:92-100). -/
def cutArr (ish s : List Nat) : List Nat :=
  if ish = [] then [] else if s.drop (s.length - ish.length) = ish then ish else s

/-- The `batch` of the entry of a nested field (shape.py:82-90); `b ≠ -1` unless `ish = ()`. -/
def cutBatch (ish : List Nat) (b : BShape) : BShape :=
  if ish = [] then .tup []
  else match b with
    | .tup s => if s.drop (s.length - ish.length) = ish then .tup ish else .tup s
    | .unstr => .unstr

/-- The loop over the fields (shape.py:62-100): `read` is `field_value.shape` of a nested field, which may fill caches. -/
def rdFields (read : Heap → Nat → Heap × Option Sh) : Heap → List (List Nat) → List Val → Heap × Option (List BShape × Meta)
  | h, ish :: is, .arr s _ :: vs =>
    let r := rdFields read h is vs
    (r.1, r.2.map fun p => (fieldBatch ish s :: p.1, .tup (cutArr ish s) p.2))
  | h, ish :: is, .ref o :: vs =>
    let r := read h o
    match r.2 with
    | none => (r.1, none)
    | some sh => match nestedBatch ish sh.1 with
      | none => (r.1, none)
      | some b =>
        let q := rdFields read r.1 is vs
        (q.1, q.2.map fun p => (b :: p.1, .node (cutBatch ish sh.1) sh.2 p.2))
  | h, _, _ => (h, some ([], .nil))

/-- `x.shape` (shape.py:37-110). -/
def rdShape : Nat → Heap → Nat → Heap × Option Sh
  | 0, h, _ => (h, none)
  | n + 1, h, o =>
    match h[o]? with
    | none => (h, none)
    | some x => match x.shapeC with
      | some s => (h, some s)                                                                   -- 46-49
      | none =>
        let r := rdFields (rdShape n) h x.ishs x.fields
        match r.2 with
        | none => (r.1, none)
        | some p => (r.1.modify o fun y => { y with shapeC := some (finalBatch p.1, p.2) }, some (finalBatch p.1, p.2))   -- 102-110

/-- The comprehension of `get_type` (shape.py:123-125). -/
def rdDFields (read : Heap → Nat → Heap × Option Dt) : Heap → List Val → Heap × Option Dt
  | h, .arr _ t :: vs =>
    let r := rdDFields read h vs
    (r.1, r.2.map fun p => .leaf t p)
  | h, .ref o :: vs =>
    let r := read h o
    match r.2 with
    | none => (r.1, none)
    | some d =>
      let q := rdDFields read r.1 vs
      (q.1, q.2.map fun p => .node d p)
  | h, [] => (h, some .nil)

/-- `x.dtype` (shape.py:116-127). -/
def rdDtype : Nat → Heap → Nat → Heap × Option Dt
  | 0, h, _ => (h, none)
  | n + 1, h, o =>
    match h[o]? with
    | none => (h, none)
    | some x => match x.dtypeC with
      | some s => (h, some s)
      | none =>
        let r := rdDFields (rdDtype n) h x.fields
        match r.2 with
        | none => (r.1, none)
        | some d => (r.1.modify o fun y => { y with dtypeC := some d }, some d)

/-- SINGLE, BATCHED or UNSTRUCTURED (shape.py:159-164). -/
def classify : BShape → SType
  | .tup [] => .single
  | .tup (_ :: _) => .batched
  | .unstr => .unstructured

/-- `x.structured_type` (shape.py:152-167). -/
def rdType (n : Nat) (h : Heap) (o : Nat) : Heap × Option SType :=
  match h[o]? with
  | none => (h, none)
  | some x => match x.stypeC with
    | some t => (h, some t)
    | none =>
      let r := rdShape n h o
      match r.2 with
      | none => (r.1, none)
      | some s => (r.1.modify o fun y => { y with stypeC := some (classify s.1) }, some (classify s.1))

/-- `len(x)` (shape.py:131-148). -/
def rdLen (n : Nat) (h : Heap) (o : Nat) : Heap × Option Nat :=
  let r := rdShape n h o
  (r.1, r.2.bind fun s => match s.1 with
    | .tup [] => some 1
    | .tup (d :: _) => some d
    | .unstr => none)

/-- What a program can do with instances.  `new`: the constructor, `default`, `replace`, `tree_map`, indexing: an object with the given fields and no
caches (dataclass.py:183-198 sets declared fields only; dataclass.py:133-134).  `set`: `x.field = value`.  `copy`: `copy.copy(x)`, and pickling for
the arrays it holds: the whole `__dict__`, caches included (dataclass.py:136-137, 160-163). -/
inductive Op where
  | new (ishs : List (List Nat)) (vals : List Val)
  | set (o i : Nat) (v : Val)
  | copy (o : Nat)
  | shape (o : Nat)
  | dtype (o : Nat)
  | stype (o : Nat)
  | len (o : Nat)

def setField (h : Heap) (o i : Nat) (v : Val) : Heap := h.modify o fun x => { x with fields := x.fields.set i v }

/-- The heap after an operation. -/
def step (n : Nat) (h : Heap) : Op → Heap
  | .new ishs vals => h ++ [{ ishs := ishs, fields := vals }]
  | .set o i v => setField h o i v
  | .copy o => match h[o]? with
    | none => h
    | some x => h ++ [x]
  | .shape o => (rdShape n h o).1
  | .dtype o => (rdDtype n h o).1
  | .stype o => (rdType n h o).1
  | .len o => (rdLen n h o).1

/-- A program that starts with no instances. -/
def run (n : Nat) (ops : List Op) : Heap := ops.foldl (step n) []

end Cache
