import Verif.BitpackModel

/-!
# Model of aggregate bit packing: `aggregate_bitpack/__init__.py`, `spec.py`

A class is modelled by its field list: primitive leaves (name, `bits`, intrinsic shape) and nested classes.  An instance has
the same form, with the row-major contents of an array of shape `batch ++ intrinsic_shape` at every leaf; `flatN` is the
number of batch elements.  dtypes: leaf contents are integers (booleans are 0/1); the final casts to `bool`/`uint8`/`uint32`
do not change a value below `2 ^ bits` and are left out.
-/

namespace Agg

open SortGroup Bitpack

/-- Fields of a dataclass, in declaration order (`dataclasses.fields` + field descriptors). -/
inductive Cls where
  | nil
  | leaf (name : String) (bits : Nat) (shape : List Nat) (rest : Cls)
  | nested (name : String) (sub rest : Cls)

/-- Attribute values of an instance, in the same order. -/
inductive Inst (α : Type) where
  | nil
  | leaf (name : String) (v : α) (rest : Inst α)
  | nested (name : String) (sub rest : Inst α)
  deriving DecidableEq

/-- `_build_agg_spec._walk` (spec.py:148-197): the leaf specs below `prefix`, and the next free bit. -/
def walk : Cls → List String → Nat → List Leaf × Nat
  | .nil, _, off => ([], off)
  | .leaf n b sh rest, pre, off =>
    let r := walk rest pre (off + size sh * b)
    ({ path := pre ++ [n], bits := b, nvalues := size sh, offset := off } :: r.1, r.2)
  | .nested n sub rest, pre, off =>
    let a := walk sub (pre ++ [n]) off
    let r := walk rest pre a.2
    (a.1 ++ r.1, r.2)

/-- `_build_agg_spec` (spec.py:144-200). -/
def specs (c : Cls) : List Leaf := (walk c [] 0).1
def totalBits (c : Cls) : Nat := (walk c [] 0).2

/-- `_compute_word_tail_layout` (spec.py:207-228): `(words_all_len, stored_words_len, tail_bytes)`. -/
def layout (total : Nat) : Nat × Nat × Nat :=
  let wordsAll := if total = 0 then 0 else ceilDiv total 32
  let remBits := total % 32
  let remBytes := if remBits = 0 then 0 else ceilDiv remBits 8
  if remBytes = 1 ∨ remBytes = 2 then (wordsAll, wordsAll - 1, remBytes) else (wordsAll, wordsAll, 0)

/-- `_get_path` (__init__.py:137-141) down to a leaf; `none`: `AttributeError`, or not an array. -/
def Inst.get {α : Type} : Inst α → List String → Option α
  | .nil, _ => none
  | .leaf n v rest, p => if p = [n] then some v else rest.get p
  | .nested n sub rest, p =>
    match p with
    | q :: ps => if q = n then sub.get ps else rest.get p
    | [] => none

/-- The leaf arrays in spec order (__init__.py:143-148). -/
def gather (inst : Inst (List Int)) : List Leaf → Option (List (List Int))
  | [] => some []
  | s :: ss => (inst.get s.path).bind fun v => (gather inst ss).map fun r => v :: r

/-- Row `r` of `arr.reshape((flat_n, n))`. -/
def row {α : Type} (n r : Nat) (v : List α) : List α := (v.drop (r * n)).take n

/-- Row `r` of `values_stream` (__init__.py:147, 154-158). -/
def stream (ss : List Leaf) (vs : List (List Int)) (r : Nat) : List Nat :=
  ((ss.zip vs).flatMap fun p => row p.1.nvalues r p.2).map toU32

/-- One row of a `Packed` instance. -/
structure PackedRow where
  words : List Nat
  tail : List Nat
  deriving DecidableEq

/-- Splitting the words into stored words and tail bytes (__init__.py:178-191). -/
def splitRow (wordsAllLen tailBytes : Nat) (ws : List Nat) : PackedRow :=
  if tailBytes = 0 then ⟨ws, []⟩
  else ⟨if wordsAllLen > 1 then ws.dropLast else [],
    tab tailBytes fun k => (ws.getLastD 0 >>> (k * 8)) &&& 0xFF⟩

/-- `_words_all_from_packed` (__init__.py:238-256), one row. -/
def joinRow (storedLen tailBytes : Nat) (p : PackedRow) : List Nat :=
  if tailBytes = 0 then p.words
  else
    let last := (List.range tailBytes).foldl (fun acc k => acc ||| ((p.tail.getD k 0 <<< (k * 8)) % 2 ^ 32)) 0
    if storedLen ≠ 0 then p.words ++ [last] else [last]

/-- `.packed` (__init__.py:128-203): the rows of the packed instance.  `kernel` is the word kernel chosen by the backend
(XLA or Pallas). -/
def packed (kernel : List Nat → Tables → List Nat) (c : Cls) (flatN : Nat) (inst : Inst (List Int)) :
    Option (List PackedRow) :=
  let ss := specs c
  let (wordsAllLen, _, tailBytes) := layout (totalBits c)
  let t := buildTables ss wordsAllLen
  (gather inst ss).map fun vs => (List.range flatN).map fun r =>
    let ws := if t.totalValues = 0 then List.replicate wordsAllLen 0 else kernel (stream ss vs r) t
    splitRow wordsAllLen tailBytes ws

/-- `_decode_field_all` (__init__.py:299-340) for one row: `idxs` are the normalised `int32` indices. -/
def decodeField (words : List Nat) (s : Leaf) (idxs : List Int) : List Nat :=
  idxs.map fun i => decode words s.bits ((s.offset + toU32 i * s.bits) % 2 ^ 32)

/-- `_normalize_indices(None)`: `arange(nvalues)` (__init__.py:260-261). -/
def allIdx (n : Nat) : List Int := (List.range n).map Int.ofNat

/-- One leaf for all rows, flattened (__init__.py:352-355). -/
def decodeLeaf (c : Cls) (p : List PackedRow) (s : Leaf) : List Nat :=
  let (_, storedLen, tailBytes) := layout (totalBits c)
  p.flatMap fun r => decodeField (joinRow storedLen tailBytes r) s (allIdx s.nvalues)

/-- `_build_view_instance` (__init__.py:357-374): `none`: `KeyError`. -/
def buildView (dict : List (List String × List Nat)) : Cls → List String → Option (Inst (List Nat))
  | .nil, _ => some .nil
  | .leaf n _ _ rest, pre =>
    (dict.lookup (pre ++ [n])).bind fun v => (buildView dict rest pre).map fun r => .leaf n v r
  | .nested n sub rest, pre =>
    (buildView dict sub (pre ++ [n])).bind fun a => (buildView dict rest pre).map fun r => .nested n a r

/-- `.unpacked` (__init__.py:343-376). -/
def unpacked (c : Cls) (p : List PackedRow) : Option (Inst (List Nat)) :=
  buildView ((specs c).map fun s => (s.path, decodeLeaf c p s)) c []

/-- The `indices` argument of `unpack_field`. -/
inductive Indices where
  | all
  | slice (start stop step : Option Int)
  | list (is : List Int)

/-- `jnp.arange(start, stop, step)` for `step ≠ 0`. -/
def arange (start stop step : Int) : List Int :=
  let n := if step > 0 then ((stop - start + step - 1) / step).toNat else ((start - stop + (-step) - 1) / (-step)).toNat
  (List.range n).map fun (k : Nat) => start + (k : Int) * step

/-- `_normalize_indices` (__init__.py:258-269). -/
def normalize (nvalues : Nat) : Indices → List Int
  | .all => allIdx nvalues
  | .slice a b s => arange (a.getD 0) (b.getD nvalues) (s.getD 1)
  | .list is => is

/-- `unpack_field(name, indices=…)` (__init__.py:381-440): row by row; `none`: `KeyError`. -/
def unpackField (c : Cls) (p : List PackedRow) (path : List String) (idx : Indices) : Option (List (List Nat)) :=
  let (_, storedLen, tailBytes) := layout (totalBits c)
  ((specs c).find? fun s => s.path == path).map fun s =>
    p.map fun r => decodeField (joinRow storedLen tailBytes r) s (normalize s.nvalues idx)

end Agg
