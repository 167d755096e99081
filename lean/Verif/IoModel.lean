import Verif.BitpackProps
import Verif.AggModel

/-!
# Model of `xtructure/io/io.py`

An `.npz` file is a dictionary from names to arrays and strings; the file system is a dictionary from paths to such files (paths
are not normalised, directories, compression and the crash behaviour of the file system are left out).  Strings used as keys
are lists of characters.  The values of an instance are JAX arrays (`np.asarray`, `jnp.array` keep them, x64 being off or on throughout);
fields holding other Python objects are not modelled.  `none` is an exception.
-/

namespace Io

open Agg Bitpack

abbrev Key := List Char

/-- dtypes; `ext`: the `ml_dtypes` types (`bfloat16`, …), which `np.load` does not restore. -/
inductive DType where
  | bool
  | uint (w : Nat)
  | int (w : Nat)
  | float (w : Nat)
  | ext (name : String)
  deriving DecidableEq

/-- A JAX array; entries of floats are bit patterns, booleans 0/1. -/
structure Arr where
  dtype : DType
  shape : List Nat
  data : List Int
  deriving DecidableEq

/-- What the descriptor of a field says: dtype, `bits`, whether `packed_bits` is set (field_descriptors.py:66-137). -/
structure Desc where
  dtype : DType
  bits : Option Nat := none
  inMemory : Bool := false
  deriving DecidableEq

/-- A dataclass: its fields in declaration order. -/
inductive Cls where
  | nil
  | leaf (name : String) (d : Desc) (rest : Cls)
  | nested (name : String) (sub rest : Cls)

/-- An entry of the file. -/
inductive Ent where
  | arr (a : Arr)
  | str (s : String)
  deriving DecidableEq

/-- A Python dictionary. -/
abbrev Dict := List (Key × Ent)

def get (d : Dict) (k : Key) : Option Ent := d.lookup k

/-- `d[k] = v`. -/
def put (d : Dict) (k : Key) (v : Ent) : Dict :=
  if d.any (·.1 == k) then d.map fun e => if e.1 = k then (k, v) else e else d ++ [(k, v)]

/-- `d.update(d')`. -/
def update (d d' : Dict) : Dict := d'.foldl (fun acc e => put acc e.1 e.2) d

/-- The suffixes of `_bitpack_keys` (io.py:23-31). -/
def dataSfx : Key := ".__xtructure_bitpack__.data".toList
def shapeSfx : Key := ".__xtructure_bitpack__.shape".toList
def bitsSfx : Key := ".__xtructure_bitpack__.bits".toList
def dtypeSfx : Key := ".__xtructure_bitpack__.dtype".toList

def moduleKey : Key := "__xtructure_class_module__".toList
def classKey : Key := "__xtructure_class_name__".toList

/-- `to_uint8(value, active_bits=bits)` with its assertions (bitpack.py:146-156).  Float values (only possible with one bit) are not
modelled. -/
def pack (a : Arr) (bits : Nat) : Option (List Nat) :=
  if ¬ (1 ≤ bits ∧ bits ≤ 32) then none
  else match a.dtype with
    | .bool => if bits = 1 then some (toUint8 a.data bits) else none
    | .uint _ => some (toUint8 a.data bits)
    | .int _ => some (toUint8 a.data bits)
    | _ => none

/-- `str(dtype)`; the string is never read back. -/
def dtypeName : DType → String
  | .bool => "bool"
  | .uint w => "uint" ++ toString w
  | .int w => "int" ++ toString w
  | .float w => "float" ++ toString w
  | .ext n => n

/-- The entries for one array field (io.py:51-76); shapes are stored as `int32`, `bits` as `uint8`. -/
def saveLeaf (packed : Bool) (d : Desc) (key : Key) (a : Arr) : Option Dict :=
  match d.bits with
  | some bits =>
    if packed ∧ ¬ d.inMemory then
      if a.shape.any fun n => decide (2 ^ 31 ≤ n) then none
      else (pack a bits).map fun bytes =>
        put (put (put (put [] (key ++ dataSfx) (.arr ⟨.uint 8, [bytes.length], bytes.map Int.ofNat⟩))
          (key ++ shapeSfx) (.arr ⟨.int 32, [a.shape.length], a.shape.map Int.ofNat⟩))
          (key ++ bitsSfx) (.arr ⟨.uint 8, [1], [(bits : Int)]⟩))
          (key ++ dtypeSfx) (.str (dtypeName a.dtype))
    else some [(key, .arr a)]
  | none => some [(key, .arr a)]

/-- `_flatten_instance_for_save` (io.py:34-80). -/
def flatten (packed : Bool) : Cls → Key → Inst Arr → Option Dict
  | .nil, _, .nil => some []
  | .leaf n d cr, pre, .leaf _ a r =>
    (saveLeaf packed d (pre ++ n.toList) a).bind fun e => (flatten packed cr pre r).map fun e' => update e e'
  | .nested n cs cr, pre, .nested _ x r =>
    (flatten packed cs (pre ++ n.toList ++ ['.']) x).bind fun e => (flatten packed cr pre r).map fun e' => update e e'
  | _, _, _ => none

/-- `np.savez_compressed(path, **data)`: a key `file` clashes with the parameter of that name; a key `allow_pickle` is taken for the
parameter (numpy 2.2 and later). -/
def savez (d : Dict) : Option Dict :=
  if (get d "file".toList).isSome then none else some (d.filter fun e => decide (e.1 ≠ "allow_pickle".toList))

/-- The file system. -/
abbrev Fs := List (Key × Dict)

/-- `np.savez_compressed` appends `.npz` to a path without it. -/
def npzPath (path : Key) : Key := if ".npz".toList.isSuffixOf path then path else path ++ ".npz".toList

/-- `save(path, instance, packed=…)` (io.py:83-116) for an instance of class `c` with the given `__module__` and `__name__`: the new file
system. -/
def save (fs : Fs) (path : Key) (packed : Bool) (mod name : String) (c : Cls) (x : Inst Arr) : Option Fs :=
  (flatten packed c [] x).bind fun d =>
    (savez (put (put d moduleKey (.str mod)) classKey (.str name))).map fun f => (npzPath path, f) :: fs

/-- `data[key]` of an `NpzFile`: the member `key`, or the member `key.npy` (member names end in `.npy`). -/
def npz (d : Dict) (k : Key) : Option Ent :=
  match d.find? fun e => decide (e.1 ++ ".npy".toList = k) with
  | some e => some e.2
  | none => get d k

/-- `x.astype(dtype)` for a non-negative integer `x` (two's complement); conversions to floats are not modelled. -/
def cast : DType → Nat → Option Int
  | .bool, v => some (if v = 0 then 0 else 1)
  | .uint w, v => some ((v % 2 ^ w : Nat) : Int)
  | .int w, v => some (((v : Int) + 2 ^ (w - 1)) % 2 ^ w - 2 ^ (w - 1))
  | _, _ => none

/-- `jnp.array(data[key])`: a dtype that `np.load` does not restore raises. -/
def jnpArray : Ent → Option Arr
  | .arr a => match a.dtype with
    | .ext _ => none
    | _ => some a
  | .str _ => none

/-- The value of one array field (io.py:137-160); a missing entry makes the constructor raise (every field is required). -/
def loadLeaf (d : Desc) (data : Dict) (key : Key) : Option Arr :=
  match npz data (key ++ dataSfx), npz data (key ++ shapeSfx), npz data (key ++ bitsSfx) with
  | some (.arr b), some (.arr s), some (.arr t) =>
    let shape := s.data.map Int.toNat
    ((fromUint8 (b.data.map Int.toNat) (size shape) ((t.data.getD 0 0).toNat)).mapM (cast d.dtype)).map fun v => ⟨d.dtype, shape, v⟩
  | some _, some _, some _ => none
  | _, _, _ => (npz data key).bind jnpArray

/-- `_unflatten_data_for_load` and the constructors (io.py:119-161, 197). -/
def unflatten (data : Dict) : Cls → Key → Option (Inst Arr)
  | .nil, _ => some .nil
  | .leaf n d cr, pre => (loadLeaf d data (pre ++ n.toList)).bind fun a => (unflatten data cr pre).map fun r => .leaf n a r
  | .nested n cs cr, pre =>
    (unflatten data cs (pre ++ n.toList ++ ['.'])).bind fun x => (unflatten data cr pre).map fun r => .nested n x r

/-- A loaded instance with its class. -/
structure Loaded where
  mod : String
  name : String
  inst : Inst Arr
  deriving DecidableEq

/-- `load(path)` (io.py:164-197); `reg`: the classes that `importlib` and `getattr` find. -/
def load (fs : Fs) (reg : String → String → Option Cls) (path : Key) : Option Loaded :=
  (fs.lookup path).bind fun data =>
    match npz data moduleKey, npz data classKey with
    | some (.str m), some (.str n) => (reg m n).bind fun c => (unflatten data c []).map fun x => ⟨m, n, x⟩
    | _, _ => none

/-- `SomeClass.load(path)` (xtructure_decorators/io.py:25-34): the class must be the requested one (subclasses are not modelled). -/
def loadAs (fs : Fs) (reg : String → String → Option Cls) (mod name : String) (path : Key) : Option (Inst Arr) :=
  (load fs reg path).bind fun l => if l.mod = mod ∧ l.name = name then some l.inst else none

end Io
