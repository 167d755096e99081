import Verif.HashWords
import Verif.HashBytes
import Verif.AggProps
import Verif.HTConfig

/-!
# Settings of hashing and of aggregate packing (C85)

`Py`, `Env`, `Device`, `CfgErr` are those of `BgpqConfigModel`.  The settings of hashing are read when the class is decorated, those of packing at every
`packed` (in packed mode also while hashing).  Caching of traced functions is not modelled.

Leaves of a class are `bool` or integer arrays (a float leaf with `bits` would be cast by value; it is not modelled).
-/

namespace HashModel

open Agg Bitpack
open Bgpq (Py Env Device CfgErr)

/-! ## Parsing -/

section Parse

variable (py : Py) (env : Env)

/-- `XTRUCTURE_HASH_AGG_MODE` (hash.py:131-133). -/
inductive AggMode where
  | raw
  | packed
  | auto
  deriving DecidableEq

def aggMode : Except CfgErr AggMode :=
  let v := py.lower (py.strip ((env "XTRUCTURE_HASH_AGG_MODE").getD "raw"))
  if v = "raw" then .ok .raw
  else if v = "packed" then .ok .packed
  else if v = "auto" then .ok .auto
  else .error .value

/-- `XTRUCTURE_HASH_STREAM` (hash.py:135-137), as a function of the threshold. -/
def streamMode : Except CfgErr (Nat → Stream) :=
  let v := py.lower (py.strip ((env "XTRUCTURE_HASH_STREAM").getD "auto"))
  if v = "off" then .ok fun _ => .off
  else if v = "on" then .ok fun _ => .on
  else if v = "auto" then .ok .auto
  else .error .value

/-- `XTRUCTURE_HASH_STREAM_THRESHOLD_U32` (hash.py:139-149); the default is the string of 8192. -/
def streamThreshold : Except CfgErr Nat :=
  match env "XTRUCTURE_HASH_STREAM_THRESHOLD_U32" with
  | none => .ok 8192
  | some v => match py.int v with
    | none => .error .value
    | some n => if n < 0 then .error .value else .ok n.toNat

/-- How a class hashes its instances. -/
inductive Way where
  | raw (m : Stream)
  | packed

/-- `use_agg_packed` (hash.py:151-160). -/
def useAggPacked (dev : Device) (hasAgg : Bool) (m : AggMode) : Bool :=
  if hasAgg = false then false
  else match m with
    | .packed => true
    | .raw => false
    | .auto => dev == .tpu

/-- Decorating a class (hash.py:122-163); `hasAgg`: it has an aggregate layout.  In packed mode the stream setting is checked but not used. -/
def hashWay (dev : Device) (hasAgg : Bool) : Except CfgErr Way := do
  let m ← aggMode py env
  let s ← streamMode py env
  let t ← streamThreshold py env
  .ok (if useAggPacked dev hasAgg m then .packed else .raw (s t))

/-- `_parse_int_env("XTRUCTURE_AGG_BITPACK_PACK_WORD_TILE", 4)` (aggregate_bitpack/__init__.py:96-109, 125-126). -/
def packWordTile : Except CfgErr Nat :=
  match env "XTRUCTURE_AGG_BITPACK_PACK_WORD_TILE" with
  | none => .ok 4
  | some v =>
    let v := py.lower (py.strip v)
    if v ∈ ["", "none", "auto"] then .ok 4
    else match py.int v with
      | none => .error .value
      | some n => if n ≤ 0 then .error .value else .ok n.toNat

/-- `_pack_backend` (__init__.py:89-94, 111-123): is it Pallas? -/
def packPallasChosen (dev : Device) : Except CfgErr Bool :=
  let v := py.lower (py.strip ((env "XTRUCTURE_AGG_BITPACK_PACK_BACKEND").getD "auto"))
  if v = "off" then .ok false
  else if v = "pallas" then .ok true
  else if v = "xla" then .ok false
  else if v = "auto" then .ok (dev == .tpu)
  else .error .value

/-- The word kernel: XLA, or Pallas with a tile. -/
inductive PackWay where
  | xla
  | pallas (tile : Nat)
  deriving DecidableEq

/-- The dispatch of `_pack_instance` (__init__.py:163-176).  Pallas does not compile for the CPU. -/
def packWay (dev : Device) : Except CfgErr PackWay := do
  if ← packPallasChosen py env dev then do
    let t ← packWordTile py env
    if dev = .cpu then .error .pallas else .ok (.pallas t)
  else .ok .xla

end Parse

/-! ## Packing -/

/-- What the machine does during a Pallas call: contents of the output buffer, order of the programs of a row. -/
structure Machine where
  init : Tables → List Nat
  order : Tables → Nat → List Nat

/-- The buffer has the right size, every program of the grid runs. -/
def Machine.Ok (k : Machine) : Prop :=
  (∀ t, (k.init t).length = t.rows.length) ∧ ∀ t tile, ∀ b < packGrid t tile, b ∈ k.order t tile

/-- The kernel of a way to pack. -/
def PackWay.kernel (k : Machine) : PackWay → List Nat → Tables → List Nat
  | .xla => packXla
  | .pallas tile => fun vals t => packPallas vals t tile (k.init t) (k.order t tile)

/-- The number of values of an instance, `total_values`. -/
def totalValues (c : Agg.Cls) : Nat := (buildTables (specs c) (layout (totalBits c)).1).totalValues

/-- `.packed` under settings (__init__.py:128-203); a class without values does not look at them. -/
def packedCfg (py : Py) (env : Env) (dev : Device) (k : Machine) (c : Agg.Cls) (flatN : Nat) (x : Agg.Inst (List Int)) :
    Except CfgErr (Option (List PackedRow)) :=
  if totalValues c = 0 then .ok (packed packXla c flatN x)
  else match packWay py env dev with
    | .error e => .error e
    | .ok w => .ok (packed (w.kernel k) c flatN x)

/-! ## Instances -/

/-- A leaf array and whether its integers are signed. -/
structure DLeaf where
  signed : Bool
  leaf : Leaf
  deriving DecidableEq

/-- A value of a leaf as a number. -/
def num {n : Nat} (signed : Bool) (v : BitVec n) : Int := if signed then v.toInt else (v.toNat : Int)

/-- The numbers in a leaf array (what `astype(uint32)` reduces modulo `2 ^ 32`, __init__.py:145-148). -/
def DLeaf.ints (d : DLeaf) : List Int :=
  match d.leaf with
  | .bool l => l.map fun b => if b then 1 else 0
  | .w8 l => l.map (num d.signed)
  | .w16 l => l.map (num d.signed)
  | .w32 l => l.map (num d.signed)
  | .w64 l => l.map (num d.signed)

/-- The dtype of a leaf array. -/
def DLeaf.dtype (d : DLeaf) : Bool × Kind := (d.signed, d.leaf.layout.1)

/-- `tree_map`. -/
def imap {α β : Type} (f : α → β) : Agg.Inst α → Agg.Inst β
  | .nil => .nil
  | .leaf n v rest => .leaf n (f v) (imap f rest)
  | .nested n sub rest => .nested n (imap f sub) (imap f rest)

/-- `tree_flatten`. -/
def vals {α : Type} : Agg.Inst α → List α
  | .nil => []
  | .leaf _ v rest => v :: vals rest
  | .nested _ sub rest => vals sub ++ vals rest

/-- The leaves as hashed in raw mode. -/
def rawLeaves (x : Agg.Inst DLeaf) : List Leaf := (vals x).map DLeaf.leaf

/-! ## Hashing in packed mode -/

/-- `_words_all_from_packed_instance` (hash.py:299-309): all the words, but only the first `tail_bytes` bytes of the flattened tails (`flat_n ≥ 1`). -/
def packedWords (c : Agg.Cls) (rows : List PackedRow) : List W :=
  let words := (rows.flatMap PackedRow.words).map (BitVec.ofNat 32)
  let tail := (rows.flatMap PackedRow.tail).map (BitVec.ofNat 8)
  if (layout (totalBits c)).2.2 = 0 then words
  else
    let last : W := (List.range (layout (totalBits c)).2.2).foldl (fun (acc : W) (i : Nat) => acc ||| ((tail.getD i 0).setWidth 32 <<< (8 * i))) 0
    if (layout (totalBits c)).2.1 ≠ 0 then words ++ [last] else [last]

/-- `_byterize_fn` in packed mode (hash.py:311-322). -/
def packedBytes (c : Agg.Cls) (rows : List PackedRow) : List (BitVec 8) :=
  let words := (rows.flatMap PackedRow.words).map (BitVec.ofNat 32)
  let tail := (rows.flatMap PackedRow.tail).map (BitVec.ofNat 8)
  if (layout (totalBits c)).2.2 = 0 then leafBytes (.w32 words)
  else if (leafBytes (.w32 words)).length = 0 then tail
  else leafBytes (.w32 words) ++ tail

/-- Everything `hash_function_decorator` adds to a class (hash.py:391-414), for one instance and seed. -/
structure View where
  bytes : List (BitVec 8)
  uint32ed : List W
  hash : W
  hashWith : W × List W
  hashPair : W × W
  hashPairWith : (W × W) × List W
  deriving DecidableEq

/-- Raw mode. -/
def rawView (m : Stream) (x : List Leaf) (seed : W) : View :=
  { bytes := bytes x, uint32ed := uint32ed x, hash := hash m x seed, hashWith := hashWithUint32ed x seed,
    hashPair := hashPair m x seed, hashPairWith := hashPairWithUint32ed x seed }

/-- Packed mode (hash.py:334-335, 353-354, 369-380). -/
def packedView (c : Agg.Cls) (rows : List PackedRow) (seed : W) : View :=
  let u := packedWords c rows
  { bytes := packedBytes c rows, uint32ed := u, hash := hashFast u seed, hashWith := (hashFast u seed, u),
    hashPair := hashFastPair u seed, hashPairWith := (hashFastPair u seed, u) }

/-- Settings: those at decoration, those at the call, the device. -/
structure Setup where
  py : Py
  env0 : Env
  env : Env
  dev : Device

/-- A class without aggregate layout. -/
def Setup.viewPlain (s : Setup) (x : List Leaf) (seed : W) : Except CfgErr View :=
  match hashWay s.py s.env0 s.dev false with
  | .error e => .error e
  | .ok (.raw m) => .ok (rawView m x seed)
  | .ok .packed => .error .value

/-- A class with aggregate layout `c`; `none`: not an instance. -/
def Setup.viewAgg (s : Setup) (k : Machine) (c : Agg.Cls) (flatN : Nat) (x : Agg.Inst DLeaf) (seed : W) : Except CfgErr (Option View) :=
  match hashWay s.py s.env0 s.dev true with
  | .error e => .error e
  | .ok (.raw m) => .ok (some (rawView m (rawLeaves x) seed))
  | .ok .packed =>
    match packedCfg s.py s.env s.dev k c flatN (imap DLeaf.ints x) with
    | .error e => .error e
    | .ok none => .ok none
    | .ok (some rows) => .ok (some (packedView c rows seed))

end HashModel
