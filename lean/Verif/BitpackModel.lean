import Verif.SortGroup

/-!
# Model of bit packing: `aggregate_bitpack/{bitpack,kernels,spec,__init__}.py` and `bitpack_accessors.py`

`uint8`/`uint32` values are naturals with explicit reduction modulo `2 ^ 8` / `2 ^ 32`.  Input values are integers (any
integer dtype); `astype(uint32)` reduces them modulo `2 ^ 32`.  `x >> s` is 0 for `s ≥ 32`, as in XLA.

Batches: all functions below `reshape` the batch to rows and act on every row in the same way; the model is given for one
row where the code does nothing else with the batch, and with explicit rows (`rows`) where it regroups data.
-/

namespace Bitpack

open SortGroup

/-- Row-major `reshape((-1, k))` of an array whose size is a multiple of `k`. -/
def rows {α : Type u} (k : Nat) (l : List α) : List (List α) :=
  (List.range (l.length / k)).map fun r => (l.drop (r * k)).take k

/-- `z.astype(uint32)`. -/
def toU32 (z : Int) : Nat := (z % 2 ^ 32).toNat

/-- `_ceil_div` (spec.py:203-204). -/
def ceilDiv (a b : Nat) : Nat := (a + b - 1) / b

/-- `packed_num_bytes` (bitpack.py:24-53); the argument checks are the hypotheses `1 ≤ bits ≤ 32` of the theorems. -/
def packedNumBytes (n bits : Nat) : Nat :=
  if n = 0 then 0
  else if bits = 8 then n
  else if bits = 1 then (n + 7) / 8
  else if bits = 2 ∨ bits = 4 then (n + 8 / bits - 1) / (8 / bits)
  else
    let L := Nat.lcm bits 8
    (n + L / bits - 1) / (L / bits) * (L / 8)

/-! ## Word contribution tables (spec.py) -/

/-- `_AggLeafSpec` (spec.py:15-29), the entries used for packing. -/
structure Leaf where
  path : List String
  bits : Nat
  nvalues : Nat
  offset : Nat
  deriving DecidableEq

/-- One table entry: value index (`-1`: unused), first bit in the value, first bit in the word, number of bits. -/
structure Contrib where
  vi : Int
  vb : Nat
  wb : Nat
  nb : Nat
  deriving DecidableEq

/-- `_mask_u32_np` (spec.py:61-66), `_mask_u32` (bitpack.py:83-84). -/
def mask (bits : Nat) : Nat := if bits = 0 then 0 else if bits ≥ 32 then 0xFFFFFFFF else 2 ^ bits - 1

/-- Contributions of the value number `vi` occupying bits `start … start + bits - 1` (spec.py:92-112), tagged with the word
they go to. -/
def valueContribs (vi start bits : Nat) : List (Nat × Contrib) :=
  let stop := start + bits
  let w0 := start / 32
  let w1 := (stop - 1) / 32
  (List.range (w1 + 1 - w0)).filterMap fun d =>
    let w := w0 + d
    let oStart := max start (32 * w)
    let oEnd := min stop (32 * w + 32)
    if oEnd ≤ oStart then none
    else some (w, { vi := vi, vb := oStart - start, wb := oStart - 32 * w, nb := oEnd - oStart })

/-- All contributions of a leaf whose first value has number `voff` (spec.py:91-112). -/
def leafContribs (voff : Nat) (s : Leaf) : List (Nat × Contrib) :=
  (List.range s.nvalues).flatMap fun i => valueContribs (voff + i) (s.offset + i * s.bits) s.bits

/-- All contributions in the order they are appended (spec.py:85-114). -/
def allContribs : Nat → List Leaf → List (Nat × Contrib)
  | _, [] => []
  | voff, s :: ss => leafContribs voff s ++ allContribs (voff + s.nvalues) ss

/-- `_AggWordContribTables` (spec.py:32-50). -/
structure Tables where
  totalValues : Nat
  maxContrib : Nat
  rows : List (List Contrib)

/-- `_build_word_contrib_tables` (spec.py:69-141): row `w` holds the contributions to word `w`, padded with unused entries. -/
def buildTables (specs : List Leaf) (wordsAllLen : Nat) : Tables :=
  let contribs := tab wordsAllLen fun w => ((allContribs 0 specs).filter fun e => e.1 == w).map fun e => e.2
  let mc := (contribs.map List.length).foldl max 0
  { totalValues := (specs.map (·.nvalues)).sum
    maxContrib := mc
    rows := contribs.map fun c => c ++ List.replicate (mc - c.length) { vi := -1, vb := 0, wb := 0, nb := 0 } }

/-! ## Packing kernels (kernels.py) -/

/-- One part of a word (kernels.py:42-55, 131-142): `vals` is the row of `uint32` values, to which a zero column is appended.
The bit positions are stored as `uint8`. -/
def part (vals : List Nat) (total : Nat) (c : Contrib) : Nat :=
  let v := (vals ++ [0]).getD (if c.vi ≥ 0 then c.vi.toNat else total) 0
  (((v >>> (c.vb % 256)) &&& mask c.nb) <<< (c.wb % 256)) % 2 ^ 32

/-- A word is the disjunction of its parts. -/
def packWord (vals : List Nat) (total : Nat) (row : List Contrib) : Nat :=
  row.foldl (fun acc c => acc ||| part vals total c) 0

/-- `pack_words_all_xla` (kernels.py:26-56), one row. -/
def packXla (vals : List Nat) (t : Tables) : List Nat :=
  if t.rows.length = 0 then []
  else if t.maxContrib = 0 then List.replicate t.rows.length 0
  else t.rows.map (packWord vals t.totalValues)

/-- One program of the Pallas kernel (kernels.py:119-144): `word_tile` consecutive words of one row, guarded by
`w < words_all_len`. -/
def packProgram (vals : List Nat) (t : Tables) (tile : Nat) (out : List Nat) (blk : Nat) : List Nat :=
  (List.range tile).foldl (fun out off =>
    let w := blk * tile + off
    if w < t.rows.length then out.set w (packWord vals t.totalValues (t.rows.getD w [])) else out) out

/-- `pack_words_all_pallas` (kernels.py:146-179), one row: the programs of the grid run in some order `order` on an output
buffer with arbitrary contents `init`. -/
def packPallas (vals : List Nat) (t : Tables) (tile : Nat) (init : List Nat) (order : List Nat) : List Nat :=
  if t.rows.length = 0 then []
  else if t.maxContrib = 0 then List.replicate t.rows.length 0
  else order.foldl (packProgram vals t tile) init

/-- Number of programs per row (kernels.py:166). -/
def packGrid (t : Tables) (tile : Nat) : Nat := (t.rows.length + tile - 1) / tile

/-! ## Byte streams -/

/-- `bitcast_convert_type(words, uint8)`: little-endian bytes. -/
def bytesOfWords (ws : List Nat) : List Nat :=
  ws.flatMap fun w => [w % 256, (w >>> 8) % 256, (w >>> 16) % 256, (w >>> 24) % 256]

/-- `bitcast_convert_type` of an `(N, 4)` byte array to `uint32`. -/
def wordsOfQuads : List Nat → List Nat
  | a :: b :: c :: d :: rest => (a ||| (b <<< 8) ||| (c <<< 16) ||| (d <<< 24)) :: wordsOfQuads rest
  | _ => []

/-- Bytes padded with zeros to a multiple of four and viewed as words (bitpack.py:264-273, bitpack_accessors.py:120-129). -/
def wordsOfBytes (bs : List Nat) : List Nat :=
  wordsOfQuads (bs ++ List.replicate ((4 - bs.length % 4) % 4) 0)

/-- `jnp.packbits(bits, bitorder="little")`. -/
def packbits (bs : List Bool) : List Nat :=
  tab ((bs.length + 7) / 8) fun j =>
    (List.range 8).foldl (fun acc t => acc ||| (((bs.getD (8 * j + t) false).toNat) <<< t)) 0

/-- `jnp.unpackbits(bytes, count=n, bitorder="little")`. -/
def unpackbits (bytes : List Nat) (n : Nat) : List Bool :=
  tab n fun q => (bytes.getD (q / 8) 0).testBit (q % 8)

/-- Two-word extraction of the `bits`-wide value at bit position `pos` (bitpack.py:274-292, __init__.py:310-334,
bitpack_accessors.py:130-155): a zero word is appended; `jnp.take` returns the largest `uint32` out of range. -/
def decode (words : List Nat) (bits pos : Nat) : Nat :=
  let idx := pos >>> 5
  let sh := pos &&& 31
  let w0 := (words ++ [0]).getD idx 0xFFFFFFFF
  let w1 := (words ++ [0]).getD (idx + 1) 0xFFFFFFFF
  ((w0 >>> sh) ||| (if sh = 0 then 0 else (w1 <<< (32 - sh)) % 2 ^ 32)) &&& mask bits

/-! ## `to_uint8` / `from_uint8` (bitpack.py) -/

/-- Block layout (bitpack.py:64-67): values, bytes and words per block of `lcm(bits, 8)` bits. -/
def blockVals (bits : Nat) : Nat := Nat.lcm bits 8 / bits
def blockBytes (bits : Nat) : Nat := Nat.lcm bits 8 / 8
def blockWords (bits : Nat) : Nat := (Nat.lcm bits 8 + 31) / 32

/-- `_get_block_pack_tables` (bitpack.py:56-80). -/
def blockTables (bits : Nat) : Tables :=
  buildTables [{ path := ["leaf"], bits := bits, nvalues := blockVals bits, offset := 0 }] (blockWords bits)

/-- Zero padding to a multiple of `k` (bitpack.py:166-172, 189-195). -/
def padTo {α : Type u} (z : α) (k : Nat) (l : List α) : List α := l ++ List.replicate ((k - l.length % k) % k) z

/-- `to_uint8` (bitpack.py:135-202) for integer (or boolean, as 0/1) values. -/
def toUint8 (vals : List Int) (bits : Nat) : List Nat :=
  if bits = 1 then packbits (vals.map fun z => decide (z ≠ 0))                           -- 148-152
  else if bits = 8 then vals.map fun z => (z % 256).toNat                                -- 161-162
  else if bits = 2 ∨ bits = 4 then                                                       -- 164-182
    (rows (8 / bits) (padTo 0 (8 / bits) vals)).map fun g =>
      g.zipIdx.foldl (fun acc p => acc ||| ((((p.1 % 256).toNat &&& (2 ^ bits - 1)) <<< (p.2 * bits)) % 256)) 0
  else                                                                                   -- 184-202
    (rows (blockVals bits) (padTo 0 (blockVals bits) vals)).flatMap fun g =>
      (bytesOfWords (packXla (g.map toU32) (blockTables bits))).take (blockBytes bits)

/-- `from_uint8` (bitpack.py:205-296); `n` is the number of elements of `target_shape`.  Booleans are 0/1. -/
def fromUint8 (bytes : List Nat) (n bits : Nat) : List Nat :=
  if n = 0 then []
  else if bits = 1 then (unpackbits bytes n).map Bool.toNat                              -- 227-231
  else if bits = 8 then bytes.take n                                                     -- 233-234
  else if bits = 2 ∨ bits = 4 then                                                       -- 236-245
    (bytes.flatMap fun b => (List.range (8 / bits)).map fun t => (b >>> (t * bits)) &&& (2 ^ bits - 1)).take n
  else                                                                                   -- 247-296
    ((rows (blockBytes bits) (padTo 0 (blockBytes bits) bytes)).flatMap fun g =>
      (List.range (blockVals bits)).map fun i => decode (wordsOfBytes g) bits (i * bits % 2 ^ 32)).take n

/-! ## `packed_tensor` accessors (bitpack_accessors.py) -/

/-- `_pack_value` for one row of `n` values (bitpack_accessors.py:167-228), with the tables of `_get_bitpack_pack_tables` (bitpack_accessors.py:41-71). -/
def packRow (vals : List Int) (bits : Nat) : List Nat :=
  let n := vals.length
  if n = 0 then List.replicate (packedNumBytes n bits) 0
  else if bits = 1 then packbits (vals.map fun z => decide (z ≠ 0))
  else
    let padded := ceilDiv n (blockVals bits) * blockVals bits                            -- 54-58
    let wordsLen := ceilDiv (padded * bits) 32
    let t := buildTables [{ path := ["leaf"], bits := bits, nvalues := padded, offset := 0 }] wordsLen
    (bytesOfWords (packXla ((vals ++ List.replicate (padded - n) 0).map toU32) t)).take (packedNumBytes n bits)

/-- `_unpack_value` for one row (bitpack_accessors.py:82-164); booleans are 0/1. -/
def unpackRow (bytes : List Nat) (n bits : Nat) : List Nat :=
  if n = 0 then []
  else if bits = 1 then (unpackbits bytes n).map Bool.toNat
  else tab n fun i => decode (wordsOfBytes bytes) bits (i * bits % 2 ^ 32)

/-- `_pack_value` on a whole field (bitpack_accessors.py:167-228): `data` is the row-major content of an array of shape
`batch_shape + unpacked_shape` with `n` values per item.  `none` for `n = 0`: what JAX does
with `reshape((-1, 0))` depends on its version, so zero-size intrinsic shapes are not modelled. -/
def packValue (data : List Int) (n bits : Nat) : Option (List Nat) :=
  if n = 0 then none else some ((rows n data).flatMap fun r => packRow r bits)

/-- `_unpack_value` on a whole field (bitpack_accessors.py:82-164). -/
def unpackValue (data : List Nat) (n bits : Nat) : Option (List Nat) :=
  if packedNumBytes n bits = 0 then none
  else some ((rows (packedNumBytes n bits) data).flatMap fun r => unpackRow r n bits)

/-- An array: shape and row-major contents. -/
structure Arr (α : Type u) where
  shape : List Nat
  data : List α
  deriving DecidableEq

/-- Number of elements of an array of the given shape (`np.prod`). -/
def size : List Nat → Nat
  | [] => 1
  | d :: ds => d * size ds

/-- Field descriptor, as far as bit packing is concerned: `packed_bits`, `unpacked_intrinsic_shape`
(bitpack_accessors.py:74-79). -/
inductive Desc where
  | plain
  | packed (bits : Nat) (ushape : List Nat)
  deriving DecidableEq

/-- Field values; for a packed field the stored `uint8` bytes. -/
abbrev Fields := List (String × Arr Int)

/-- `_pack_value` with its checks (bitpack_accessors.py:167-228): `none` is an exception. -/
def packField (v : Arr Int) (bits : Nat) (ushape batch : List Nat) : Option (Arr Int) :=
  if v.shape.take batch.length ≠ batch then none                                          -- 174-177
  else if v.shape.drop batch.length ≠ ushape then none                                    -- 178-181
  else (packValue v.data (size ushape) bits).map fun d =>
    ⟨batch ++ [packedNumBytes (size ushape) bits], d.map Int.ofNat⟩

/-- `_unpack_value` with its checks (bitpack_accessors.py:82-164); `jnp.asarray(…, dtype=uint8)` reduces modulo 256. -/
def unpackField (p : Arr Int) (bits : Nat) (ushape batch : List Nat) : Option (Arr Nat) :=
  if p.shape.getLast? ≠ some (packedNumBytes (size ushape) bits) then none                -- 100-104
  else (unpackValue (p.data.map fun z => (z % 256).toNat) (size ushape) bits).bind fun d =>
    if d.length = size (batch ++ ushape) then some ⟨batch ++ ushape, d⟩ else none         -- 164

/-- The `updates` dictionary of `set_unpacked` (bitpack_accessors.py:266-275). -/
def packUpdates (cls : List (String × Desc)) (batch : List Nat) : Fields → Option Fields
  | [] => some []
  | (name, v) :: kw =>
    match cls.lookup name with
    | some (.packed bits us) =>
      (packField v bits us batch).bind fun p => (packUpdates cls batch kw).map fun r => (name, p) :: r
    | _ => none

/-- The injected `replace`: `dataclasses.replace` with known field names (dataclass.py). -/
def replace (inst updates : Fields) : Fields := inst.map fun f => (f.1, (updates.lookup f.1).getD f.2)

/-- `set_unpacked(**kwargs)` (bitpack_accessors.py:258-278); `batch` is `self.shape.batch`. -/
def setUnpacked (cls : List (String × Desc)) (batch : List Nat) (inst kw : Fields) : Option Fields :=
  (packUpdates cls batch kw).map (replace inst)

/-- `<field>_unpacked` (bitpack_accessors.py:244-256). -/
def getUnpacked (cls : List (String × Desc)) (batch : List Nat) (inst : Fields) (name : String) : Option (Arr Nat) :=
  match cls.lookup name with
  | some (.packed bits us) => (inst.lookup name).bind fun p => unpackField p bits us batch
  | _ => none

/-- One value of `from_unpacked` (bitpack_accessors.py:300-305, 313-317). -/
def fromOne (batch : List Nat) (d : Desc) (v : Arr Int) : Option (Arr Int) :=
  match d with
  | .packed bits us => packField v bits us batch
  | .plain => some v

/-- `from_unpacked`, all fields given (bitpack_accessors.py:297-306). -/
def fromAll (batch : List Nat) (kw : Fields) : List (String × Desc) → Option Fields
  | [] => some []
  | (name, d) :: cls =>
    (kw.lookup name).bind fun v => (fromOne batch d v).bind fun p => (fromAll batch kw cls).map fun r => (name, p) :: r

/-- `from_unpacked`, the updates of the default instance (bitpack_accessors.py:308-317). -/
def fromUpdates (cls : List (String × Desc)) (batch : List Nat) : Fields → Option Fields
  | [] => some []
  | (name, v) :: kw =>
    (cls.lookup name).bind fun d => (fromOne batch d v).bind fun p =>
      (fromUpdates cls batch kw).map fun r => (name, p) :: r

/-- `from_unpacked(shape=batch, **kw)` (bitpack_accessors.py:282-318); `dflt` is `cls.default(shape)`. -/
def fromUnpacked (cls : List (String × Desc)) (batch : List Nat) (dflt kw : Fields) : Option Fields :=
  if cls.all fun f => (kw.lookup f.1).isSome then fromAll batch kw cls
  else (fromUpdates cls batch kw).map (replace dflt)

end Bitpack
