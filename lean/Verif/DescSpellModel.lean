import Verif.DescProps
import Verif.DescRandom
import Verif.DescPolicy

/-!
# Model of the spellings of a field's dtype and shape

Files under `xtructure/core/`: `field_descriptors.py`, `field_descriptor_utils.py`, `xtructure_decorators/{__init__,default,structure_util,shape,validation}.py`,
`xtructure_decorators/aggregate_bitpack/spec.py`.

`Desc` starts from classes whose dtypes are JAX dtypes and whose intrinsic shapes are tuples.  Here a field keeps what the user wrote, and JAX's
`x64` switch is a parameter.  Shape entries are natural numbers.
-/

namespace DescSpell

open Io (DType Arr)
open Desc (Err Fv Val Mode)
open SoA (BShape)

/-- What is written as the dtype of a field that is not a decorated class: a scalar type (`jnp.int32`, `np.uint8`, `int`, `bool`), a complex
scalar type, any other class (`str`, `object`, an undecorated class), a `jnp.dtype` instance of a number or bool dtype, a `jnp.dtype` instance of
another kind (`datetime64`), a string such as `"int32"`, anything else. -/
inductive DtSpell where
  | scalarType (t : DType)
  | complexType
  | otherType
  | inst (t : DType)
  | otherInst
  | str (t : DType)
  | other
  deriving DecidableEq

/-- What is written as the intrinsic shape: a tuple, an integer, a list. -/
inductive ShSpell where
  | tup (l : List Nat)
  | int (n : Nat)
  | lst (l : List Nat)
  deriving DecidableEq

/-! ## `FieldDescriptor[...]` -/

/-- Python objects that occur between the brackets. -/
inductive PyVal where
  | dt (d : DtSpell)
  | tup (l : List Nat)
  | lst (l : List Nat)
  | fv (v : Fv)
  | none
  deriving DecidableEq

/-- What the bracket syntax hands to the constructor (field_descriptors.py:66-80); the other arguments keep their defaults. -/
structure Args where
  dtype : PyVal
  shape : PyVal := .tup []
  fill : PyVal := .none
  deriving DecidableEq

/-- What is between the brackets: one object that is not a tuple, or a tuple of objects. -/
inductive Item where
  | one (v : PyVal)
  | tuple (l : List PyVal)

def PyVal.isTuple : PyVal → Bool
  | .tup _ => true
  | _ => false

/-- `FieldDescriptor.__class_getitem__` (field_descriptors.py:261-286). -/
def bracket : Item → Except Err Args
  | .one v => .ok { dtype := v }
  | .tuple [d] => .ok { dtype := d }
  | .tuple [d, x] => if x.isTuple then .ok { dtype := d, shape := x } else .ok { dtype := d, fill := x }
  | .tuple [d, s, f] => .ok { dtype := d, shape := s, fill := f }
  | .tuple _ => .error .valueError

/-! ## Classes as they are written -/

/-- A class as it is written: array fields with dtype, shape, fill value (`none`: not given) and `bits`; nested fields with a decorated class and
its `validate` flag. -/
inductive SCls where
  | nil
  | leaf (name : String) (dt : DtSpell) (sh : ShSpell) (fill : Option Fv) (bits : Option Nat) (rest : SCls)
  | nested (name : String) (sh : ShSpell) (cid : Nat) (validate : Bool) (sub rest : SCls)

/-- The dtype check of `_create_default_method` for one array field (default.py:72-140): a class that JAX takes for a number or bool type, or an
instance of `jnp.dtype` of any kind. -/
def dtAccepted : DtSpell → Bool
  | .scalarType _ => true
  | .complexType => true
  | .inst _ => true
  | .otherInst => true
  | .otherType => false
  | .str _ => false
  | .other => false

/-- The dtype check for the class (default.py:40-140).  Nested classes were checked when they were decorated. -/
def accepted : SCls → Bool
  | .nil => true
  | .leaf _ dt _ _ _ rest => dtAccepted dt && accepted rest
  | .nested _ _ _ _ _ rest => accepted rest

/-- `jnp.dtype(descriptor.dtype)` (validation.py:25): `none`, no dtype of the model. -/
def expected : DtSpell → Option DType
  | .scalarType t => some t
  | .inst t => some t
  | .str t => some t
  | _ => none

/-- JAX's canonical dtype: 64-bit types become 32-bit ones unless `x64` is on. -/
def canon (x64 : Bool) (t : DType) : DType :=
  if x64 then t
  else match t with
    | .int 64 => .int 32
    | .uint 64 => .uint 32
    | .float 64 => .float 32
    | t => t

/-! ## default.py -/

/-- The shape handed on for a field (default.py:53-57, 86-90, 112-116): what is not a tuple is wrapped in a tuple.  A tuple that contains a list is
`none`: JAX refuses it as a shape. -/
def wrapShape : ShSpell → Option (List Nat)
  | .tup l => some l
  | .int n => some [n]
  | .lst _ => none

/-- The fill value (field_descriptors.py:126-131, 289-307): complex dtypes and other kinds have no default. -/
def fillOf (dt : DtSpell) (fill : Option Fv) : Option Fv :=
  match fill with
  | some v => some v
  | none => (expected dt).bind Desc.defaultFill

/-- `jnp.full(shape, fill, dtype)` (default.py:155-168): `shape` must be a tuple of integers, `fill` a number, `conv` is JAX's conversion of
Python scalars (`none`: it raises).  Complex arrays have the dtype `ext "complex64"`; other kinds of dtype are refused. -/
def full (x64 : Bool) (conv : DType → Fv → Option Int) (s : Option (List Nat)) (dt : DtSpell) (fill : Option Fv) : Except Err Arr :=
  match s, fill with
  | some s, some v =>
    match (if dt = .complexType then some (DType.ext "complex64") else expected dt) with
    | none => .error .typeError
    | some t => match conv (canon x64 t) v with
      | none => .error .valueError
      | some e => .ok ⟨canon x64 t, s, List.replicate (Bitpack.size s) e⟩
  | _, _ => .error .typeError

/-! ## validation.py -/

/-- `_validate_array_field` (validation.py:16-49) after `jnp.asarray(value)`; `tuple(5)` raises, `tuple([2, 3])` does not. -/
def checkArr (x64 : Bool) (dt : DtSpell) (sh : ShSpell) (a : Arr) : Except Err Unit :=
  match expected dt with
  | none => .error .typeError
  | some t =>
    if canon x64 a.dtype ≠ t then .error .typeError
    else match sh with
      | .int _ => .error .typeError
      | .tup l | .lst l =>
        if l = [] then .ok ()
        else if a.shape.length < l.length then .error .valueError
        else if a.shape.drop (a.shape.length - l.length) ≠ l then .error .valueError
        else .ok ()

/-- `check_invariants` (validation.py:51-65), fields without validators. -/
def check (x64 : Bool) : SCls → Val → Except Err Unit
  | .nil, _ => .ok ()
  | .leaf _ dt sh _ _ rest, .arr _ a r => match checkArr x64 dt sh a with
    | .error e => .error e
    | .ok _ => check x64 rest r
  | .leaf _ _ _ _ _ _, _ => .error .typeError
  | .nested _ _ cid _ _ rest, .obj _ cid' _ r => if cid' = cid then check x64 rest r else .error .typeError
  | .nested _ _ _ _ _ _, _ => .error .typeError

/-- `cls(**values)` (validation.py:69-80). -/
def construct (x64 v : Bool) (c : SCls) (x : Val) : Except Err Val :=
  if v then match check x64 c x with
    | .error e => .error e
    | .ok _ => .ok x
  else .ok x

/-- The loop of `default(shape)` (default.py:154-172); `none`: a shape that contains a list. -/
def defaultFields (x64 : Bool) (conv : DType → Fv → Option Int) : SCls → Option (List Nat) → Except Err Val
  | .nil, _ => .ok .nil
  | .leaf n dt sh fill _ rest, b =>
    match full x64 conv (b.bind fun b => (wrapShape sh).map (b ++ ·)) dt (fillOf dt fill) with
    | .error e => .error e
    | .ok a => match defaultFields x64 conv rest b with
      | .error e => .error e
      | .ok r => .ok (.arr n a r)
  | .nested n sh cid v sub rest, b =>
    match defaultFields x64 conv sub (b.bind fun b => (wrapShape sh).map (b ++ ·)) with
    | .error e => .error e
    | .ok x => match construct x64 v sub x with
      | .error e => .error e
      | .ok x => match defaultFields x64 conv rest b with
        | .error e => .error e
        | .ok r => .ok (.obj n cid x r)

/-- `cls.default(shape)` (default.py:143-174). -/
def default (x64 : Bool) (conv : DType → Fv → Option Int) (v : Bool) (c : SCls) (b : List Nat) : Except Err Val :=
  match defaultFields x64 conv c (some b) with
  | .error e => .error e
  | .ok x => construct x64 v c x

/-! ## structure_util.py: random -/

/-- Number of fields. -/
def SCls.width : SCls → Nat
  | .nil => 0
  | .leaf _ _ _ _ _ rest => rest.width + 1
  | .nested _ _ _ _ _ rest => rest.width + 1

/-- The loop of `random(shape, key)` (structure_util.py:106-149): the shape of an array field is wrapped (120-122), that of a nested field is
not (`shape + current_default_shape`, 114).  Other kinds of dtype: `jnp.zeros` (complex; not modelled further: an error here). -/
def randomFields {K : Type} (x64 : Bool) (g : Desc.Rng K) : SCls → List Nat → K → Nat → Nat → Except Err Val
  | .nil, _, _, _, _ => .ok .nil
  | .leaf nm dt sh _ _ rest, b, k, n, i =>
    match wrapShape sh, expected dt with
    | some s, some t => match randomFields x64 g rest b k n (i + 1) with
      | .error e => .error e
      | .ok r => .ok (.arr nm (Desc.randomArr g (g.split k n i) (canon x64 t) (b ++ s)) r)
    | _, _ => .error .typeError
  | .nested nm sh cid v sub rest, b, k, n, i =>
    match sh with
    | .tup ish => match randomFields x64 g sub (b ++ ish) (g.split k n i) sub.width 0 with
      | .error e => .error e
      | .ok x => match construct x64 v sub x with
        | .error e => .error e
        | .ok x => match randomFields x64 g rest b k n (i + 1) with
          | .error e => .error e
          | .ok r => .ok (.obj nm cid x r)
    | _ => .error .typeError

/-- `cls.random(shape, key)` (structure_util.py:99-150). -/
def random {K : Type} (x64 : Bool) (g : Desc.Rng K) (v : Bool) (c : SCls) (b : List Nat) (k : K) : Except Err Val :=
  match randomFields x64 g c b k c.width 0 with
  | .error e => .error e
  | .ok x => construct x64 v c x

/-! ## shape.py -/

/-- The batch shape one array field suggests (shape.py:92-99): `len(5)` raises; a tuple never equals a list. -/
def fieldBatch (sh : ShSpell) (s : List Nat) : Except Err BShape :=
  match sh with
  | .tup l => .ok (SoA.fieldBatch l s)
  | .int _ => .error .typeError
  | .lst _ => .ok .unstr

/-- The batch shape a nested field suggests (shape.py:82-90); `-1[-k:]` raises. -/
def nestedBatch (sh : ShSpell) (b : BShape) : Except Err BShape :=
  match sh with
  | .tup l => match SoA.nestedBatch l b with
    | none => .error .typeError
    | some b => .ok b
  | .int _ => .error .typeError
  | .lst _ => match b with
    | .tup _ => .ok .unstr
    | .unstr => .error .typeError

/-- The list `batch_shapes` (shape.py:58-100); a value that is no array in an array field is not modelled further (an error). -/
def fieldBatches : SCls → Val → Except Err (List BShape)
  | .nil, _ => .ok []
  | .leaf _ _ sh _ _ rest, .arr _ a r => match fieldBatch sh a.shape with
    | .error e => .error e
    | .ok b => match fieldBatches rest r with
      | .error e => .error e
      | .ok l => .ok (b :: l)
  | .nested _ sh _ _ sub rest, .obj _ _ x r => match fieldBatches sub x with
    | .error e => .error e
    | .ok l => match nestedBatch sh (SoA.finalBatch l) with
      | .error e => .error e
      | .ok b => match fieldBatches rest r with
        | .error e => .error e
        | .ok l => .ok (b :: l)
  | _, _ => .error .typeError

/-- `x.shape.batch`, `x.batch_shape` (shape.py:37-110, 171-172); `len(x)`, `x.ndim` and `x.structured_type` read it first (131-187). -/
def batchShape (c : SCls) (x : Val) : Except Err BShape :=
  match fieldBatches c x with
  | .error e => .error e
  | .ok l => .ok (SoA.finalBatch l)

/-! ## Decoration -/

/-- The tuple meant by a spelling. -/
def ShSpell.meant : ShSpell → List Nat
  | .tup l => l
  | .int n => [n]
  | .lst l => l

/-- The class with every shape written as a tuple. -/
def SCls.norm : SCls → SCls
  | .nil => .nil
  | .leaf n dt sh f b rest => .leaf n dt (.tup sh.meant) f b rest.norm
  | .nested n sh cid v sub rest => .nested n (.tup sh.meant) cid v sub.norm rest.norm

/-- The class as `Desc` describes it (array dtypes of the model only; fields without validators and factories). -/
def SCls.toCls : SCls → Desc.Cls
  | .nil => .nil
  | .leaf n dt sh f b rest =>
    .leaf n { dtype := (expected dt).getD .bool, ish := sh.meant, fill := fillOf dt f, bits := b, packedBits := none, udtype := none, uish := none,
              factory := none, validator := none } rest.toCls
  | .nested n sh cid v sub rest => .nested n sh.meant cid v sub.toCls rest.toCls

/-- `tuple(fd.intrinsic_shape)`: `tuple(5)` raises. -/
def asTuple : ShSpell → Except Err (List Nat)
  | .tup l => .ok l
  | .lst l => .ok l
  | .int _ => .error .typeError

/-- `_all_bits_no_nested_arrays` (xtructure_decorators/__init__.py:94-106): stops at the first field that settles the answer. -/
def allBits : SCls → Except Err Bool
  | .nil => .ok true
  | .leaf _ _ _ _ bits rest => if bits.isSome then allBits rest else .ok false
  | .nested _ sh _ _ sub rest => match asTuple sh with
    | .error e => .error e
    | .ok l =>
      if l = [] then match allBits sub with
        | .error e => .error e
        | .ok false => .ok false
        | .ok true => allBits rest
      else .ok false

/-- `_build_agg_spec._walk` (spec.py:148-197) with its exceptions: the shape of a nested field is read at 159, that of a leaf at 175 after its
`bits` (168-172). -/
def aggCheck : SCls → Except Err Unit
  | .nil => .ok ()
  | .leaf _ _ sh _ bits rest =>
    if bits.isSome then match asTuple sh with
      | .error e => .error e
      | .ok _ => aggCheck rest
    else .error .valueError
  | .nested _ sh _ _ sub rest => match asTuple sh with
    | .error e => .error e
    | .ok l =>
      if l = [] then match aggCheck sub with
        | .error e => .error e
        | .ok _ => aggCheck rest
      else .error .notImplemented

/-- `xtructure_dataclass(cls, aggregate_bitpack=flag, bitpack=mode)` (xtructure_decorators/__init__.py:51-116): the mode, the dtype check of
`add_default_method`, the policy, the layout.  The view class is built with tuples (view.py:48), as in `Desc.decorate`. -/
def decorate (fuel : Nat) (mode : Mode) (flag : Bool) (c : SCls) : Except Err Desc.Out :=
  match Desc.effective mode flag with
  | .error e => .error e
  | .ok m =>
    if accepted c then
      match (if c.width ≠ 0 ∧ m = .auto then allBits c else .ok false) with
      | .error e => .error e
      | .ok auto =>
        if m = .aggregate ∨ auto = true then
          match aggCheck c with
          | .error e => .error e
          | .ok _ => Desc.decorate fuel mode flag c.toCls
        else Desc.decorate fuel mode flag c.toCls
    else .error .typeError

/-! ## field_descriptor_utils.py -/

/-- `_normalize_shape` (field_descriptor_utils.py:10-13): a shape given to `with_intrinsic_shape` / `clone_field_descriptor`. -/
def withShape (sh : ShSpell) : Except Err ShSpell :=
  match asTuple sh with
  | .error e => .error e
  | .ok l => .ok (.tup l)

/-- `broadcast_intrinsic_shape` (field_descriptor_utils.py:72-81): `batch + descriptor.intrinsic_shape`, tuples only. -/
def broadcastShape (old batch : ShSpell) : Except Err ShSpell :=
  match asTuple batch with
  | .error e => .error e
  | .ok b => match old with
    | .tup l => .ok (.tup (b ++ l))
    | _ => .error .typeError

end DescSpell
