import Verif.HashTableModel

/-!
# Model of `xtructure/core/xtructure_decorators/hash.py`

`uint32` values are `BitVec 32`.  A leaf of an instance is given by the bit patterns of its elements in row-major order
(`int*`/`uint*` `astype` to the unsigned type of the same width and `bitcast_convert_type` of floats both keep the bit
pattern).
-/

namespace HashModel

/-- A `uint32`. -/
abbrev W := BitVec 32

/-- `_avalanche32` (hash.py:10-18). -/
def avalanche32 (h : W) : W :=
  let h := h ^^^ (h >>> 16)
  let h := h * 0x85EBCA77#32
  let h := h ^^^ (h >>> 13)
  let h := h * 0xC2B2AE3D#32
  h ^^^ (h >>> 16)

/-- `_mix_fingerprint` (hash.py:21-36). -/
def mixFingerprint (primary secondary length : W) : W :=
  let mix := primary ^^^ 0x9E3779B9#32
  let mix := mix + secondary * 0x85EBCA6B#32 + length * 0xC2B2AE35#32
  let mix := mix ^^^ (mix >>> 16)
  let mix := mix * 0x7FEB352D#32
  mix ^^^ (mix >>> 15)

/-- `_split_uint64_to_uint32` (hash.py:39-43). -/
def splitUint64 (l : List (BitVec 64)) : List W :=
  l.flatMap fun u => [(u &&& 0xFFFFFFFF#64).setWidth 32, (u >>> 32).setWidth 32]

/-- Row-wise combination of an `(N, 2)` array (hash.py:52-55). -/
def pairs16 : List (BitVec 16) → List W
  | lo :: hi :: rest => (lo.setWidth 32 ||| (hi.setWidth 32 <<< 16)) :: pairs16 rest
  | _ => []

/-- `_pack_uint16_to_uint32` (hash.py:46-55); `(-size) % 2` zero elements of padding. -/
def packUint16 (l : List (BitVec 16)) : List W :=
  pairs16 (l ++ List.replicate ((2 - l.length % 2) % 2) 0)

/-- `bitcast_convert_type` of an `(N, 4)` `uint8` array to `uint32` (little-endian). -/
def quads8 : List (BitVec 8) → List W
  | a :: b :: c :: d :: rest =>
    (a.setWidth 32 ||| (b.setWidth 32 <<< 8) ||| (c.setWidth 32 <<< 16) ||| (d.setWidth 32 <<< 24)) :: quads8 rest
  | _ => []

/-- `_to_uint32_from_bytes` (hash.py:180-196); `(-len) % 4` zero bytes of padding. -/
def wordsOfBytes (l : List (BitVec 8)) : List W :=
  quads8 (l ++ List.replicate ((4 - l.length % 4) % 4) 0)

/-- A leaf array, by element type: `bool`, 8-bit, 16-bit, 32-bit or 64-bit elements. -/
inductive Leaf
  | bool (l : List Bool)
  | w8 (l : List (BitVec 8))
  | w16 (l : List (BitVec 16))
  | w32 (l : List (BitVec 32))
  | w64 (l : List (BitVec 64))
  deriving DecidableEq

/-- `_leaf_to_uint32` (hash.py:198-229). -/
def leafWords : Leaf → List W
  | .bool l => wordsOfBytes (l.map fun b => if b then 1 else 0)
  | .w8 l => wordsOfBytes l
  | .w16 l => packUint16 l
  | .w32 l => l
  | .w64 l => splitUint64 l

/-- `_to_uint32_raw` (hash.py:231-237), the `uint32ed` property. -/
def uint32ed (x : List Leaf) : List W := x.flatMap leafWords

/-- `_to_bytes_leaf` (hash.py:163-168): little-endian bytes of the elements. -/
def leafBytes : Leaf → List (BitVec 8)
  | .bool l => l.map fun b => if b then 1 else 0
  | .w8 l => l
  | .w16 l => l.flatMap fun v : BitVec 16 => [v.setWidth 8, (v >>> 8).setWidth 8]
  | .w32 l => l.flatMap fun v : BitVec 32 => [v.setWidth 8, (v >>> 8).setWidth 8, (v >>> 16).setWidth 8, (v >>> 24).setWidth 8]
  | .w64 l => l.flatMap fun v : BitVec 64 => (List.range 8).map fun k => (v >>> (8 * k)).setWidth 8

/-- `_byterize_raw` (hash.py:170-177), the `bytes` property. -/
def bytes (x : List Leaf) : List (BitVec 8) := x.flatMap leafBytes

/-- `jnp.bitwise_xor.reduce`. -/
def xorReduce (l : List W) : W := l.foldl (· ^^^ ·) 0

/-- `salt` of the word at position `i` (hash.py:66-67). -/
def salt (i : Nat) : W := BitVec.ofNat 32 i * 0x9E3779B1#32

/-- `lanes` for words starting at position `off` (hash.py:68, 255). -/
def lanes (seed : W) (off : Nat) (ws : List W) : List W :=
  (ws.zipIdx off).map fun p => avalanche32 (p.1 ^^^ salt p.2 ^^^ seed)

/-- `lanes ^ (salt * const_b)` (hash.py:94, 289). -/
def lanes1 (seed : W) (off : Nat) (ws : List W) : List W :=
  (ws.zipIdx off).map fun p => avalanche32 (p.1 ^^^ salt p.2 ^^^ seed) ^^^ (salt p.2 * 0x85EBCA6B#32)

/-- `hash_fast_uint32ed` (hash.py:58-73). -/
def hashFast (ws : List W) (seed : W) : W :=
  if ws.length = 0 then avalanche32 (seed ^^^ 0x9E3779B1#32)
  else avalanche32 (xorReduce (lanes seed 0 ws) ^^^ BitVec.ofNat 32 (ws.length <<< 2) ^^^ seed)

/-- `hash_fast_uint32ed_pair` (hash.py:76-100). -/
def hashFastPair (ws : List W) (seed : W) : W × W :=
  if ws.length = 0 then (avalanche32 (seed ^^^ 0x9E3779B1#32), avalanche32 (seed ^^^ 0x85EBCA6B#32))
  else
    (avalanche32 (xorReduce (lanes seed 0 ws) ^^^ BitVec.ofNat 32 (ws.length <<< 2) ^^^ seed),
     avalanche32 (xorReduce (lanes1 seed 0 ws) ^^^ BitVec.ofNat 32 (ws.length <<< 2) ^^^ (seed ^^^ 0xC2B2AE35#32)))

/-- Loop of `_hash_streaming_from_leaves` (hash.py:249-257): (combined, offset). -/
def streamLoop (seed : W) (acc : W × Nat) (leaf : List W) : W × Nat :=
  if leaf.length = 0 then acc
  else (acc.1 ^^^ xorReduce (lanes seed acc.2 leaf), acc.2 + leaf.length)

/-- `_hash_streaming_from_leaves` (hash.py:239-260). -/
def hashStreaming (leaves : List (List W)) (seed : W) : W :=
  if leaves.length = 0 then avalanche32 (seed ^^^ 0x9E3779B1#32)
  else
    let r := leaves.foldl (streamLoop seed) (0, 0)
    avalanche32 (r.1 ^^^ BitVec.ofNat 32 (r.2 <<< 2) ^^^ seed)

/-- Loop of `_hash_pair_streaming_from_leaves` (hash.py:277-290): (combined0, combined1, offset). -/
def streamLoopPair (seed : W) (acc : W × W × Nat) (leaf : List W) : W × W × Nat :=
  if leaf.length = 0 then acc
  else (acc.1 ^^^ xorReduce (lanes seed acc.2.2 leaf), acc.2.1 ^^^ xorReduce (lanes1 seed acc.2.2 leaf),
    acc.2.2 + leaf.length)

/-- `_hash_pair_streaming_from_leaves` (hash.py:262-295). -/
def hashPairStreaming (leaves : List (List W)) (seed : W) : W × W :=
  if leaves.length = 0 then (avalanche32 (seed ^^^ 0x9E3779B1#32), avalanche32 (seed ^^^ 0x85EBCA6B#32))
  else
    let r := leaves.foldl (streamLoopPair seed) (0, 0, 0)
    (avalanche32 (r.1 ^^^ BitVec.ofNat 32 (r.2.2 <<< 2) ^^^ seed),
     avalanche32 (r.2.1 ^^^ BitVec.ofNat 32 (r.2.2 <<< 2) ^^^ (seed ^^^ 0xC2B2AE35#32)))

/-- `XTRUCTURE_HASH_STREAM` and `XTRUCTURE_HASH_STREAM_THRESHOLD_U32` (hash.py:135-149). -/
inductive Stream
  | off
  | on
  | auto (threshold : Nat)

/-- Does `_h`/`_h_pair` take the streaming branch (hash.py:335-347)? -/
def Stream.streams (m : Stream) (leaves : List (List W)) : Bool :=
  match m with
  | .off => false
  | .on => true
  | .auto t => !decide ((leaves.map List.length).sum ≤ t)

/-- `_h` in raw mode (hash.py:331-349), the `hash` method. -/
def hash (m : Stream) (x : List Leaf) (seed : W) : W :=
  if m.streams (x.map leafWords) then hashStreaming (x.map leafWords) seed else hashFast (uint32ed x) seed

/-- `_h_pair` in raw mode (hash.py:351-367), the `hash_pair` method. -/
def hashPair (m : Stream) (x : List Leaf) (seed : W) : W × W :=
  if m.streams (x.map leafWords) then hashPairStreaming (x.map leafWords) seed else hashFastPair (uint32ed x) seed

/-- `_h_with_uint32ed` (hash.py:374-380). -/
def hashWithUint32ed (x : List Leaf) (seed : W) : W × List W := (hashFast (uint32ed x) seed, uint32ed x)

/-- `_h_pair_with_uint32ed` (hash.py:369-372). -/
def hashPairWithUint32ed (x : List Leaf) (seed : W) : (W × W) × List W := (hashFastPair (uint32ed x) seed, uint32ed x)

/-- `_words_all_from_packed_instance` (hash.py:299-309), the `uint32ed` of aggregate-packed classes in `packed` mode;
`tail` has `tail_bytes` entries. -/
def wordsAll (words : List W) (tail : List (BitVec 8)) : List W :=
  if tail.length = 0 then words
  else
    let last : W := tail.zipIdx.foldl (fun (acc : W) (p : BitVec 8 × Nat) => acc ||| (p.1.setWidth 32 <<< (8 * p.2))) 0
    if words.length ≠ 0 then words ++ [last] else [last]

/-! ## Layouts -/

/-- Element type and number of elements of a leaf. -/
inductive Kind | bool | b8 | b16 | b32 | b64
  deriving DecidableEq

/-- Layout of a leaf (dtype width and flattened size: fixed by the class and the intrinsic shapes). -/
def Leaf.layout : Leaf → Kind × Nat
  | .bool l => (.bool, l.length)
  | .w8 l => (.b8, l.length)
  | .w16 l => (.b16, l.length)
  | .w32 l => (.b32, l.length)
  | .w64 l => (.b64, l.length)

end HashModel
