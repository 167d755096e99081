/-!
# Class declaration: names, members, inheritance

What `@xtructure_dataclass` does with the names in a class body: which declarations it accepts, which attributes it puts on
the class, and how an instance of the class is built and read.  `D` is the type of field descriptors, `V` of field values.

A class attribute is a property without a setter (a data descriptor: it wins over the instance dictionary, and assigning to it
on an instance raises) or anything else (methods, classmethods, plain values: the instance dictionary wins).  A field name is
an identifier that is not a keyword.  Fields have no default in the class body, and the new fields of a subclass are not named like
an attribute of its base (`dataclasses` would take that attribute as the default).
-/

namespace ClsDecl

/-- Exceptions. -/
inductive Err where
  | valueError
  | typeError
  | attributeError
  deriving DecidableEq

/-- The annotation of a field: a descriptor, `Annotated[T, m₁, …]` (for each mᵢ the descriptor it is, if it is one), or
anything else (a type, a string under postponed evaluation, …). -/
inductive Ann (D : Type) where
  | desc (d : D)
  | annotated (metas : List (Option D))
  | other
  deriving DecidableEq

/-- `_descriptor_from_annotation` (field_descriptors.py:310-317). -/
def Ann.descriptor {D : Type} : Ann D → Option D
  | .desc d => some d
  | .annotated ms => ms.findSome? id
  | .other => none

/-- `extract_field_descriptors_from_annotations` (field_descriptors.py:320-341). -/
def extract {D : Type} (anns : List (String × Ann D)) : Except Err (List (String × D)) :=
  if anns.all fun p => p.2.descriptor.isSome then .ok (anns.filterMap fun p => p.2.descriptor.map fun d => (p.1, d))
  else .error .valueError

/-- A class attribute: a property or not, put there by the decorator or by the user. -/
structure Member where
  isProp : Bool
  generated : Bool
  deriving DecidableEq

/-- Class attributes, the last assignment first; those of the base class at the end. -/
abbrev Attrs := List (String × Member)

/-- `setattr(cls, n, property(...))` and `setattr(cls, n, ...)` by the decorator. -/
def setProp (n : String) (ns : Attrs) : Attrs := (n, ⟨true, true⟩) :: ns
def setPlain (n : String) (ns : Attrs) : Attrs := (n, ⟨false, true⟩) :: ns

/-- A decorated class: `dataclasses.fields`, the cached descriptors, the attributes. -/
structure Built (D : Type) where
  fields : List String
  descs : List (String × D)
  attrs : Attrs

/-- A class statement: the decorated base class, if any; the annotations; the other names of the body (`true`: a property). -/
structure Body (D : Type) where
  base : Option (Built D)
  anns : List (String × Ann D)
  own : List (String × Bool)

/-- What decides about bit packing (C56): whether a descriptor is a packed one, whether the class gets an aggregate layout, and
whether the accessors are added (`bitpack` is not `"off"`). -/
structure Policy (D : Type) where
  isPacked : D → Bool
  aggregate : List (String × D) → Bool
  accessors : Bool

/-- `dataclasses.fields`: the fields of the base, then the new ones; a redeclared field keeps its place. -/
def mergeFields (base own : List String) : List String := base ++ own.filter fun n => !base.contains n

/-- `_RESERVED_DCLS_FIELD_NAMES` (dataclass.py:12). -/
def reserved : List String := ["from_tuple", "replace", "to_tuple"]

/-- `namedtuple("shape", ["batch"] + field_names)` (shape.py:27) raises for a repeated name and for names that start with an underscore;
`field_names` are the keys of a dictionary. -/
def namedtupleOk (names : List String) : Bool :=
  names.all fun n => n ≠ "batch" && n.toList.head? ≠ some '_'

/-- The names of `_XNP_METHOD_REGISTRY` (method_factory.py:49-79). -/
def xnpMethods : List String :=
  ["reshape", "flatten", "transpose", "swapaxes", "moveaxis", "squeeze", "expand_dims", "broadcast_to", "roll", "flip", "rot90", "astype",
   "vstack", "hstack", "dstack", "column_stack", "block", "pad", "equal", "not_equal", "isclose", "allclose"]

/-- `hasattr(cls, n)`, and the attribute. -/
def find (ns : Attrs) (n : String) : Option Member := (ns.find? fun p => p.1 == n).map Prod.snd

/-- `add_xnp_instance_methods` (method_factory.py:81-84): an existing attribute is kept. -/
def addXnp (ns : Attrs) : Attrs := xnpMethods.foldl (fun ns n => if (find ns n).isSome then ns else setPlain n ns) ns

/-- `add_bitpack_accessors` (bitpack_accessors.py:231-321). -/
def addAccessors {D : Type} (pol : Policy D) (descs : List (String × D)) (ns : Attrs) : Attrs :=
  let packed := (descs.filter fun p => pol.isPacked p.2).map Prod.fst
  if packed.isEmpty then ns
  else setPlain "from_unpacked" (setPlain "set_unpacked" (packed.foldl (fun ns n => setProp (n ++ "_unpacked") ns) ns))

/-- The attributes set between the descriptor lookup and the `xnp` methods, in the order of the decorators
(xtructure_decorators/__init__.py:70-128). -/
def stages {D : Type} (pol : Policy D) (descs : List (String × D)) (ns : Attrs) : Attrs :=
  let ns := setPlain "default" ns                                                               -- default.py:30
  let ns := setPlain "default_dtype" (setPlain "default_shape" ns)                              -- shape.py:33-34
  let ns := setPlain "__len__" (setProp "dtype" (setProp "shape" ns))                           -- shape.py:112-150
  let ns := setProp "ndim" (setProp "batch_shape" (setProp "structured_type" ns))               -- shape.py:169-189
  let ns := setProp "at" (setPlain "__getitem__" ns)                                            -- indexing.py:202-203
  let ns := setPlain "random" ns                                                                -- structure_util.py:152
  let ns := if pol.aggregate descs then setPlain "bitpack_schema" (setProp "packed" (setPlain "Packed" ns)) else ns
  let ns := if pol.accessors then addAccessors pol descs ns else ns
  let ns := setPlain "str" (setPlain "__str__" ns)                                              -- string_format.py:142-145
  let ns := setPlain "hash" (setProp "uint32ed" (setProp "bytes" ns))                           -- hash.py:405-407
  let ns := setPlain "hash_pair_with_uint32ed" (setPlain "hash_pair" (setPlain "hash_with_uint32ed" ns))  -- hash.py:408-410
  let ns := setPlain "__ne__" (setPlain "__eq__" ns)                                            -- ops.py:53-54
  setPlain "load" (setPlain "save" ns)                                                          -- io.py:33-34

/-- `xtructure_dataclass` (xtructure_decorators/__init__.py:51-137): the decorators in their order. -/
def declare {D : Type} (pol : Policy D) (b : Body D) : Except Err (Built D) :=
  let fields := mergeFields ((b.base.map Built.fields).getD []) (b.anns.map Prod.fst)
  let ns := b.own.map (fun p => (p.1, (⟨p.2, false⟩ : Member))) ++ (b.base.map Built.attrs).getD []
  -- base_dataclass (dataclass.py:118-180)
  if fields.any fun n => reserved.contains n then .error .valueError
  else
    let ns := setPlain "replace" (setPlain "to_tuple" (setPlain "from_tuple" ns))
    -- get_field_descriptors (field_descriptors.py:352-356): the attribute of the base class is found first
    match (match b.base with | some c => Except.ok c.descs | none => extract b.anns : Except Err (List (String × D))) with
    | .error e => .error e
    | .ok descs =>
      if !namedtupleOk (descs.map Prod.fst) then .error .valueError                             -- shape.py:27
      else
        -- validation.py:67, __init__.py:135
        .ok ⟨fields, descs, setPlain "is_xtructed" (setPlain "check_invariants" (addXnp (stages pol descs ns)))⟩

/-- An instance: its dictionary. -/
abbrev Inst (V : Type) := List (String × V)

/-- `setattr(self, n, v)` as the generated `__init__` does it. -/
def assign {D V : Type} (c : Built D) (self : Inst V) (p : String × V) : Except Err (Inst V) :=
  match find c.attrs p.1 with
  | some ⟨true, _⟩ => .error .attributeError
  | _ => .ok (self ++ [p])

/-- `cls(**kwargs)`: every field must be given and nothing else; the fields are assigned in order. -/
def construct {D V : Type} (c : Built D) (kwargs : List (String × V)) : Except Err (Inst V) :=
  if c.fields.all (fun n => (kwargs.map Prod.fst).contains n) && kwargs.all (fun p => c.fields.contains p.1) then
    (c.fields.filterMap fun n => (kwargs.find? fun p => p.1 == n)).foldlM (assign c) []
  else .error .typeError

/-- `getattr(x, n)`. -/
inductive Read (V : Type) where
  | value (v : V)
  | member (m : Member)
  | missing
  deriving DecidableEq

def getattr {D V : Type} (c : Built D) (x : Inst V) (n : String) : Read V :=
  match find c.attrs n with
  | some ⟨true, g⟩ => .member ⟨true, g⟩
  | m? => match x.find? fun p => p.1 == n with
    | some p => .value p.2
    | none => match m? with
      | some m => .member m
      | none => .missing

/-- `cls.default()` (default.py:142-174): one value per descriptor. -/
def default {D V : Type} (val : D → V) (c : Built D) : Except Err (Inst V) :=
  construct c (c.descs.map fun p => (p.1, val p.2))

/-- The entries of `shape` and `dtype` (shape.py:24-31, 114-127): one per descriptor. -/
def shapeFields {D : Type} (c : Built D) : List String := c.descs.map Prod.fst

/-- `x[i]` (indexing.py:173-200): the dataclass fields are read, indexed and passed to the class. -/
def getitem {D V : Type} (c : Built D) (ix : V → V) (x : Inst V) : Except Err (Inst V) :=
  match c.fields.mapM fun n => match getattr c x n with | .value v => some (n, ix v) | _ => none with
  | some kw => construct c kw
  | none => .error .attributeError

end ClsDecl
