import Verif.IoModel
import Verif.SoAModel

/-!
# Model of field descriptors, classes and their decoration

Files under `xtructure/core/`: `field_descriptors.py`, `field_descriptor_utils.py`, `xtructure_decorators/__init__.py`,
`xtructure_decorators/{validation,structure_util}.py`, `xtructure_decorators/aggregate_bitpack/{spec,view}.py`.

Arrays are `Io.Arr` (dtype, shape, row-major entries).  Fill values are Python scalars.  `Except.error` is an exception; `recursion` is
Python's `RecursionError` (the interpreter's stack is a parameter `fuel`).
-/

namespace Desc

open Io (DType Arr)

/-- Exceptions. -/
inductive Err where
  | typeError
  | valueError
  | notImplemented
  | indexError
  | recursion
  | user
  deriving DecidableEq

/-- Python scalars used as fill values. -/
inductive Fv where
  | bool (b : Bool)
  | int (i : Int)
  | inf
  deriving DecidableEq

/-- A `FieldDescriptor` with an array dtype (field_descriptors.py:98-132).  `factory`: the result of `fill_value_factory(shape, dtype)`,
a scalar.  `validator`: whether it returns (`true`) or raises. -/
structure FD where
  dtype : DType
  ish : List Nat
  fill : Option Fv
  bits : Option Nat
  packedBits : Option Nat
  udtype : Option DType
  uish : Option (List Nat)
  factory : Option (List Nat → DType → Fv)
  validator : Option (Arr → Bool)

/-- `_default_fill_value_for_dtype` (field_descriptors.py:289-307); the `ml_dtypes` types are floats (complex dtypes are left out). -/
def defaultFill : DType → Option Fv
  | .bool => some (.bool false)
  | .uint w => some (.int (2 ^ w - 1))
  | .int _ => some (.int 0)
  | .float _ => some .inf
  | .ext _ => some .inf

/-- Range check of `bits` and `packed_bits` (field_descriptors.py:101-107, 113-119). -/
def bitsOk : Option Int → Bool
  | none => true
  | some b => decide (1 ≤ b ∧ b ≤ 32)

/-- `FieldDescriptor(dtype, intrinsic_shape, fill_value, bits=…, …)` (field_descriptors.py:66-132). -/
def init (dtype : DType) (ish : List Nat) (fill : Option Fv) (bits packedBits : Option Int) (udtype : Option DType) (uish : Option (List Nat))
    (factory : Option (List Nat → DType → Fv)) (validator : Option (Arr → Bool)) : Except Err FD :=
  if fill.isSome ∧ factory.isSome then .error .valueError                                       -- 95-96
  else if bitsOk bits = false then .error .valueError
  else if bitsOk packedBits = false then .error .valueError
  else .ok
    { dtype, ish, udtype, uish, factory, validator
      bits := bits.map Int.toNat
      packedBits := packedBits.map Int.toNat
      fill := match fill with                                                                   -- 126-131
        | some v => some v
        | none => if factory.isSome then none else defaultFill dtype }

/-- `FieldDescriptor.scalar` (field_descriptors.py:176-203). -/
def scalar (dtype : DType) (bits : Option Int) (default : Option Fv) : Except Err FD :=
  init dtype [] default bits none none none none none

/-- `FieldDescriptor.tensor` (field_descriptors.py:147-174). -/
def tensor (dtype : DType) (shape : List Nat) (bits : Option Int) (fill : Option Fv) : Except Err FD :=
  init dtype shape fill bits none none none none none

/-- `_packed_num_bytes` (field_descriptors.py:10-27). -/
def packedNumBytes (n bits : Nat) : Nat :=
  if n = 0 then 0
  else if bits = 8 then n
  else if bits = 1 then (n + 7) / 8
  else if bits = 2 ∨ bits = 4 then (n + 8 / bits - 1) / (8 / bits)
  else
    let l := Nat.lcm bits 8
    (n + l / bits - 1) / (l / bits) * (l / 8)

/-- `FieldDescriptor.packed_tensor` (field_descriptors.py:205-259) with the default storage dtype and fill value; `shape` and
`unpacked_shape` are the two spellings of the logical shape. -/
def packedTensor (udtype : Option DType) (shape ushape : Option (List Nat)) (packedBits : Int) : Except Err FD :=
  match shape, ushape with
  | none, none => .error .typeError                                                            -- 226-229
  | _, _ =>
    let sh := (shape.orElse fun _ => ushape).getD []                                            -- 230-231
    if ushape.isSome ∧ ushape ≠ some sh then .error .valueError                                  -- 232-236
    else
      let dt := udtype.getD (if packedBits = 1 then .bool else if packedBits ≤ 8 then .uint 8 else .uint 32) -- 239-246
      -- 247-248; a number of bits outside 1..32 is refused by the constructor in any case
      init (.uint 8) [packedNumBytes (Bitpack.size sh) packedBits.toNat] (some (.int 0)) none (some packedBits) (some dt) (some sh) none none

/-- What `clone_field_descriptor` overrides (field_descriptor_utils.py:17-25); `none`: not given. -/
structure Over where
  dtype : Option DType := none
  ish : Option (List Nat) := none
  fill : Option (Option Fv) := none
  factory : Option (Option (List Nat → DType → Fv)) := none
  validator : Option (Option (Arr → Bool)) := none

/-- `clone_field_descriptor` (field_descriptor_utils.py:17-62). -/
def clone (d : FD) (o : Over) : Except Err FD :=
  if o.fill.isSome ∧ o.factory.isSome then .error .valueError                                   -- 30-31
  else
    let ff : Option Fv × Option (List Nat → DType → Fv) :=                                      -- 40-48
      match o.fill, o.factory with
      | none, none => (d.fill, d.factory)
      | _, some f => (none, f)
      | some v, none => (v, none)
    init (o.dtype.getD d.dtype) (o.ish.getD d.ish) ff.1 (d.bits.map Int.ofNat) (d.packedBits.map Int.ofNat) d.udtype d.uish ff.2
      (o.validator.getD d.validator)

/-- `with_intrinsic_shape` (field_descriptor_utils.py:65-69). -/
def withShape (d : FD) (ish : List Nat) : Except Err FD := clone d { ish := some ish }

/-- `broadcast_intrinsic_shape` (field_descriptor_utils.py:72-81). -/
def broadcastShape (d : FD) (batch : List Nat) : Except Err FD := clone d { ish := some (batch ++ d.ish) }

/-- A decorated class: its fields in declaration order.  A nested field has an intrinsic shape, the identity `cid` of its class, and whether
that class was declared with `validate=True`. -/
inductive Cls where
  | nil
  | leaf (name : String) (d : FD) (rest : Cls)
  | nested (name : String) (ish : List Nat) (cid : Nat) (validate : Bool) (sub : Cls) (rest : Cls)

/-- Attribute values of an instance, in the same order: arrays, instances (with the identity of their class), or objects that
`jnp.asarray` refuses. -/
inductive Val where
  | nil
  | arr (name : String) (a : Arr) (rest : Val)
  | obj (name : String) (cid : Nat) (sub rest : Val)
  | other (name : String) (rest : Val)

/-! ## validation.py -/

/-- `_validate_array_field` (validation.py:16-49). -/
def checkArr (d : FD) (a : Arr) : Except Err Unit :=
  if a.dtype ≠ d.dtype then .error .typeError                                                   -- 31-34
  else if d.ish = [] then .ok ()                                                                -- 36-37
  else if a.shape.length < d.ish.length then .error .valueError                                  -- 39-43
  else if a.shape.drop (a.shape.length - d.ish.length) ≠ d.ish then .error .valueError           -- 44-49
  else .ok ()

/-- A validator call (validation.py:55-56). -/
def runValidator (v : Option (Arr → Bool)) (a : Arr) : Except Err Unit :=
  match v with
  | none => .ok ()
  | some f => if f a then .ok () else .error .user

/-- `check_invariants` (validation.py:51-65).  A validator on a nested field, or applied to a value that is not an array, is not modelled;
subclasses of a nested class neither. -/
def check : Cls → Val → Except Err Unit
  | .nil, _ => .ok ()
  | .leaf _ d rest, .arr _ a r =>
    match runValidator d.validator a with
    | .error e => .error e
    | .ok _ => match checkArr d a with
      | .error e => .error e
      | .ok _ => check rest r
  | .leaf _ _ _, _ => .error .typeError
  | .nested _ _ cid _ _ rest, .obj _ cid' _ r => if cid' = cid then check rest r else .error .typeError
  | .nested _ _ _ _ _ _, _ => .error .typeError

/-- `cls(**values)`: the dataclass constructor, followed by `check_invariants` when the class validates (validation.py:69-80). -/
def construct (validate : Bool) (c : Cls) (v : Val) : Except Err Val :=
  if validate then
    match check c v with
    | .error e => .error e
    | .ok _ => .ok v
  else .ok v

/-! ## default.py -/

/-- `jnp.full(shape, fill, dtype)`: `conv` is JAX's conversion of a Python scalar to an entry of the dtype. -/
def full (conv : DType → Fv → Int) (s : List Nat) (v : Fv) (t : DType) : Arr := ⟨t, s, List.replicate (Bitpack.size s) (conv t v)⟩

/-- The fill value of a field (default.py:147-152); a descriptor without a fill value and without a factory cannot occur (C55). -/
def fillOf (d : FD) (s : List Nat) : Fv :=
  match d.factory with
  | some f => f s d.dtype
  | none => d.fill.getD (.int 0)

/-- `cls.default(shape)` (default.py:143-174): the instance is built by the constructor of the class, so it is validated. -/
def default (conv : DType → Fv → Int) : Bool → Cls → List Nat → Except Err Val
  | v, c, b => match go c b with
    | .error e => .error e
    | .ok x => construct v c x
where
  go : Cls → List Nat → Except Err Val
  | .nil, _ => .ok .nil
  | .leaf n d rest, b =>
    match go rest b with
    | .error e => .error e
    | .ok r => .ok (.arr n (full conv (b ++ d.ish) (fillOf d (b ++ d.ish)) d.dtype) r)
  | .nested n ish cid v sub rest, b =>
    match go sub (b ++ ish) with
    | .error e => .error e
    | .ok x => match construct v sub x with
      | .error e => .error e
      | .ok x => match go rest b with
        | .error e => .error e
        | .ok r => .ok (.obj n cid x r)

/-! ## structure_util.py: random -/

/-- The random number generator: `jax.random.split`, `bits`, `uniform`, `bernoulli` (`K`: keys). -/
structure Rng (K : Type) where
  split : K → Nat → Nat → K
  bits : K → Nat → List Nat → List Int
  uniform : K → DType → List Nat → List Int
  bernoulli : K → List Nat → List Int

/-- `unsigned.view(signed)`: the same bit pattern as a two's complement number. -/
def viewSigned (w : Nat) (v : Int) : Int := if v < 2 ^ (w - 1) then v else v - 2 ^ w

/-- One array field of `random` (structure_util.py:70-95, 117-148). -/
def randomArr {K : Type} (g : Rng K) (k : K) (t : DType) (s : List Nat) : Arr :=
  match t with
  | .bool => ⟨.bool, s, g.bernoulli k s⟩
  | .uint w => ⟨.uint w, s, g.bits k w s⟩
  | .int w => ⟨.int w, s, (g.bits k w s).map (viewSigned w)⟩
  | .float w => ⟨.float w, s, g.uniform k (.float w) s⟩
  | .ext n => ⟨.ext n, s, g.uniform k (.ext n) s⟩

/-- Number of fields. -/
def Cls.width : Cls → Nat
  | .nil => 0
  | .leaf _ _ rest => rest.width + 1
  | .nested _ _ _ _ _ rest => rest.width + 1

/-- `cls.random(shape, key)` (structure_util.py:99-150); `n` is the number of fields of the class, `i` the index of the next one. -/
def randomFields {K : Type} (g : Rng K) : Cls → List Nat → K → Nat → Nat → Except Err Val
  | .nil, _, _, _, _ => .ok .nil
  | .leaf nm d rest, b, k, n, i =>
    match randomFields g rest b k n (i + 1) with
    | .error e => .error e
    | .ok r => .ok (.arr nm (randomArr g (g.split k n i) d.dtype (b ++ d.ish)) r)
  | .nested nm ish cid v sub rest, b, k, n, i =>
    match randomFields g sub (b ++ ish) (g.split k n i) sub.width 0 with
    | .error e => .error e
    | .ok x => match construct v sub x with
      | .error e => .error e
      | .ok x => match randomFields g rest b k n (i + 1) with
        | .error e => .error e
        | .ok r => .ok (.obj nm cid x r)

def random {K : Type} (g : Rng K) (v : Bool) (c : Cls) (b : List Nat) (k : K) : Except Err Val :=
  match randomFields g c b k c.width 0 with
  | .error e => .error e
  | .ok x => construct v c x

/-! ## Bit-packing policy: xtructure_decorators/__init__.py, spec.py, view.py -/

/-- The argument `bitpack`. -/
inductive Mode where
  | auto
  | aggregate
  | field
  | off
  | other
  deriving DecidableEq

/-- `_all_bits_no_nested_arrays` (xtructure_decorators/__init__.py:94-106). -/
def allBits : Cls → Bool
  | .nil => true
  | .leaf _ d rest => d.bits.isSome && allBits rest
  | .nested _ ish _ _ sub rest => decide (ish = []) && allBits sub && allBits rest

/-- `_build_agg_spec._walk` (spec.py:148-197) with its exceptions; the specs themselves are `Agg.walk` of `aggCls`. -/
def aggCheck : Cls → Except Err Unit
  | .nil => .ok ()
  | .leaf _ d rest => if d.bits.isSome then aggCheck rest else .error .valueError              -- 168-172
  | .nested _ ish _ _ sub rest =>
    if ish = [] then match aggCheck sub with
      | .error e => .error e
      | .ok _ => aggCheck rest
    else .error .notImplemented                                                                 -- 157-163

/-- The class seen by the packing code. -/
def aggCls : Cls → Agg.Cls
  | .nil => .nil
  | .leaf n d rest => .leaf n (d.bits.getD 0) d.ish (aggCls rest)
  | .nested n _ _ _ sub rest => .nested n (aggCls sub) (aggCls rest)

/-- `_default_unpack_dtype` (spec.py:53-58). -/
def unpackDtype (bits : Nat) : DType := if bits = 1 then .bool else if bits ≤ 8 then .uint 8 else .uint 32

/-- The descriptor of a leaf of the view class (view.py:45-49). -/
def viewFD (d : FD) : FD :=
  { dtype := unpackDtype (d.bits.getD 0), ish := d.ish, fill := some (.int 0), bits := none, packedBits := none, udtype := none, uish := none,
    factory := none, validator := none }

/-- What decoration gives the class. -/
structure Out where
  packed : Bool
  accessors : Bool
  deriving DecidableEq

/-- The fields of the view class (view.py:27-49): nested view classes are decorated on the way (`dec`); the class identities of views are left
out (0).  The cache of view classes (view.py:20-22) only avoids building one twice. -/
def viewFields (dec : Cls → Except Err Out) : Cls → Except Err Cls
  | .nil => .ok .nil
  | .leaf n d rest => match viewFields dec rest with
    | .error e => .error e
    | .ok r => .ok (.leaf n (viewFD d) r)
  | .nested n _ _ _ sub rest => match viewFields dec sub with
    | .error e => .error e
    | .ok s => match dec s with
      | .error e => .error e
      | .ok _ => match viewFields dec rest with
        | .error e => .error e
        | .ok r => .ok (.nested n [] 0 false s r)

/-- The effective mode (xtructure_decorators/__init__.py:52-67). -/
def effective (mode : Mode) (flag : Bool) : Except Err Mode :=
  match mode, flag with
  | .other, _ => .error .valueError
  | .auto, true => .ok .aggregate
  | .field, true => .error .valueError
  | .off, true => .error .valueError
  | m, _ => .ok m

/-- `xtructure_dataclass(cls, aggregate_bitpack=flag, bitpack=mode)`: which bit-packing helpers the class gets
(xtructure_decorators/__init__.py:51-116, aggregate_bitpack/__init__.py:44-90, view.py:14-62).  The `Packed` class has two array fields
without `bits`, its own decoration adds nothing; `fuel` bounds the depth of the recursion. -/
def decorate : Nat → Mode → Bool → Cls → Except Err Out
  | 0, _, _, _ => .error .recursion
  | fuel + 1, mode, flag, c =>
    match effective mode flag with
    | .error e => .error e
    | .ok m =>
      let auto := decide (c.width ≠ 0) && decide (m = .auto) && allBits c
      if m = .aggregate ∨ auto then
        match aggCheck c with
        | .error e => .error e
        | .ok _ => match viewFields (decorate fuel .auto false) c with
          | .error e => .error e
          | .ok v => match decorate fuel .auto false v with
            | .error e => .error e
            | .ok _ => .ok ⟨true, decide (m ≠ .off)⟩
      else .ok ⟨false, decide (m ≠ .off)⟩

/-! ## unpack(dtype_policy="declared") -/

/-- `_to_declared` (aggregate_bitpack/__init__.py:466-482): `jnp.asarray(val).astype(fd.dtype)` at every leaf (the row-major contents);
`none`: conversions to floats, not modelled. -/
def toDeclared : Cls → Agg.Inst (List Nat) → Option (Agg.Inst (List Int))
  | .nil, .nil => some .nil
  | .leaf n d rest, .leaf _ v r => (v.mapM (Io.cast d.dtype)).bind fun v' => (toDeclared rest r).map fun r' => .leaf n v' r'
  | .nested n _ _ _ sub rest, .nested _ x r => (toDeclared sub x).bind fun x' => (toDeclared rest r).map fun r' => .nested n x' r'
  | _, _ => none

/-- `packed.unpack(dtype_policy="declared")`, `packed.as_original()` (aggregate_bitpack/__init__.py:444-486). -/
def asOriginal (c : Cls) (p : List Agg.PackedRow) : Option (Agg.Inst (List Int)) := (Agg.unpacked (aggCls c) p).bind (toDeclared c)

end Desc
