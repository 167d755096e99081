import Verif.DescRandom

/-!
# `bitpack_schema()` and `unpack_field` by name (C86)

Strings are lists of characters.  Conversions to float dtypes are not modelled (`Io.cast` gives `none`).
-/

namespace Desc

open Io (DType Arr Key)

/-- `_AggLeafSpec` (spec.py:15-29), all its entries. -/
structure Spec where
  path : List String
  bits : Nat
  unpackedShape : List Nat
  nvalues : Nat
  bitOffset : Nat
  bitLen : Nat
  unpackDtype : DType
  declaredDtype : DType

/-- `_build_agg_spec._walk` (spec.py:148-197) for a class without the errors of `aggCheck`. -/
def specWalk : Cls → List String → Nat → List Spec × Nat
  | .nil, _, off => ([], off)
  | .leaf n d rest, pre, off =>
    let bits := d.bits.getD 0
    let nvalues := Bitpack.size d.ish
    let bitLen := nvalues * bits
    let r := specWalk rest pre (off + bitLen)
    ({ path := pre ++ [n], bits := bits, unpackedShape := d.ish, nvalues := nvalues, bitOffset := off, bitLen := bitLen,
       unpackDtype := unpackDtype bits, declaredDtype := d.dtype } :: r.1, r.2)
  | .nested n _ _ _ sub rest, pre, off =>
    let a := specWalk sub (pre ++ [n]) off
    let r := specWalk rest pre a.2
    (a.1 ++ r.1, r.2)

/-- `".".join(path)`. -/
def joinDots : List String → Key
  | [] => []
  | [n] => n.toList
  | n :: ns => n.toList ++ '.' :: joinDots ns

/-- `name.split(".")`. -/
def splitDots : Key → List (List Char)
  | [] => [[]]
  | c :: cs =>
    if c = '.' then [] :: splitDots cs
    else match splitDots cs with
      | [] => [[c]]
      | w :: ws => (c :: w) :: ws

/-- An entry of `bitpack_schema()["fields"]` (__init__.py:218-230); a dtype stands for its name. -/
structure SchemaField where
  path : Key
  bits : Nat
  bitOffset : Nat
  bitLen : Nat
  nvalues : Nat
  unpackedShape : List Nat
  unpackedDtypeDefault : DType
  declaredDtype : DType
  deriving DecidableEq

/-- `bitpack_schema()` (__init__.py:205-232), without the mode and the name of the class. -/
structure Schema where
  totalBits : Nat
  payloadBytes : Nat
  storageBytes : Nat
  wordsAllLen : Nat
  wordsLen : Nat
  tailBytes : Nat
  fields : List SchemaField
  deriving DecidableEq

def schema (c : Cls) : Schema :=
  let (specs, total) := specWalk c [] 0
  let (wordsAll, stored, tail) := Agg.layout total
  { totalBits := total, payloadBytes := Bitpack.ceilDiv total 8, storageBytes := stored * 4 + tail, wordsAllLen := wordsAll, wordsLen := stored,
    tailBytes := tail,
    fields := specs.map fun s =>
      { path := joinDots s.path, bits := s.bits, bitOffset := s.bitOffset, bitLen := s.bitLen, nvalues := s.nvalues,
        unpackedShape := s.unpackedShape, unpackedDtypeDefault := s.unpackDtype, declaredDtype := s.declaredDtype } }

/-- The argument `name` of `unpack_field`: a string, or a sequence of field names. -/
inductive FieldName where
  | str (s : Key)
  | path (p : List String)

/-- The path meant (__init__.py:410). -/
def FieldName.toPath : FieldName → List String
  | .str s => (splitDots s).map String.ofList
  | .path q => q

/-- The argument `dtype_policy`. -/
inductive Policy where
  | default
  | declared
  | other

/-- Exceptions of `unpack_field`. -/
inductive FieldErr where
  | value
  | key
  deriving DecidableEq

/-- `packed.unpack_field(name, indices=…, dtype_policy=…)` (__init__.py:381-440) for a packed instance with batch shape `batch` and rows `p`; `none`:
conversion to a float dtype, not modelled. -/
def unpackFieldNamed (c : Cls) (batch : List Nat) (p : List Agg.PackedRow) (name : FieldName) (idx : Agg.Indices) (policy : Policy) :
    Except FieldErr (Option Arr) :=
  match policy with
  | .other => .error .value                                                                       -- 404-407
  | policy =>
    match (specWalk c [] 0).1.find? fun s => s.path == name.toPath with                                  -- 411-417
    | none => .error .key
    | some s =>
      let (_, storedLen, tailBytes) := Agg.layout (specWalk c [] 0).2
      let leaf : Bitpack.Leaf := { path := s.path, bits := s.bits, nvalues := s.nvalues, offset := s.bitOffset }
      let decoded := p.map fun r => Agg.decodeField (Agg.joinRow storedLen tailBytes r) leaf (Agg.normalize s.nvalues idx)   -- 424
      let shape := match idx with                                                                 -- 431-434
        | .all => batch ++ s.unpackedShape
        | idx => batch ++ [(Agg.normalize s.nvalues idx).length]
      match policy with
      | .declared => .ok ((decoded.flatten.mapM (Io.cast s.declaredDtype)).map fun v => ⟨s.declaredDtype, shape, v⟩)        -- 436-440
      | _ => .ok (some ⟨s.unpackDtype, shape, decoded.flatten.map Int.ofNat⟩)

end Desc
