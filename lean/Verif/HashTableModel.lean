import Verif.DedupeProps

/-!
# Model of `xtructure/hashtable/{table,lookup,insert,hash_utils}.py` (XLA path)

Items are an arbitrary type `α` with decidable equality (`==` of the value class, see `DESIGN.md` for the
floating-point caveat).  Hash functions are parameters (`Hasher`): every theorem holds for every hash function.

`uint32` index arithmetic is written with an explicit `% 2 ^ 32`, the `uint8` slot index with `% 256`.
Simplifications: `probes` and fill-level counters do not wrap (they stay below the table size, which the theorems
assume to be below `2 ^ 31`); scatter indices are not cast to `int32` (same bound).
-/

namespace HashTable

open Jax SortGroup Dedupe

variable {α : Type u} [BEq α]

/-- Encoding and hash functions of the value class for a fixed seed: `hash_pair` and
`_mix_fingerprint(h1, h2, 0)` (hash_utils.py:568-594). -/
structure Hasher (α : Type u) extends Enc α where
  mix : Nat → Nat → Nat

/-- `fingerprint = _mix_fingerprint(primary_hash, secondary_hash, 0)` (hash_utils.py:564, 593). -/
def Hasher.fp (H : Hasher α) (x : α) : Nat := H.mix (H.h1 x) (H.h2 x)

/-- `HashTable` (table.py:61-81); `cap` is `_capacity`.  `capacity` and `seed` are not stored (the former is never
read, the latter is part of the `Hasher`). -/
structure Table (α : Type u) where
  cap : Nat
  bs : Nat
  maxProbes : Nat
  size : Nat
  table : List α
  fill : List Nat
  occ : List Nat
  fps : List Nat

/-- `_capacity` (table.py:32-36): `int(multiplier * capacity / bucket_size)` rounded up to a power of two.
(Python's float division is exact for the sizes that fit in memory.) -/
def internalCap (capacity bs mult : Nat) : Nat :=
  let target := mult * capacity / bs
  if target ≤ 1 then 1 else 2 ^ (Nat.log2 (target - 1) + 1)

/-- `_hashtable_build_jit` (table.py:23-58). -/
def build (d : α) (capacity bs mult : Nat) (maxProbes : Option Nat) : Table α :=
  let cap := internalCap capacity bs mult
  { cap := cap, bs := bs, maxProbes := maxProbes.getD (cap * bs), size := 0,
    table := List.replicate ((cap + 1) * bs) d, fill := List.replicate (cap + 1) 0,
    occ := List.replicate (cap + 1) 0, fps := List.replicate ((cap + 1) * bs) 0 }

/-- Start bucket (hash_utils.py:554-562, 583-591). -/
def start (H : Hasher α) (T : Table α) (x : α) : Nat :=
  let m := max T.cap 1
  if m &&& (m - 1) = 0 then H.h1 x &&& (m - 1) else H.h1 x % m

/-- Probe step, `_normalize_probe_step` (hash_utils.py:506-516). -/
def step (H : Hasher α) (T : Table α) (x : α) : Nat :=
  let m := max T.cap 1
  (if m &&& (m - 1) = 0 then H.h2 x &&& (m - 1) else H.h2 x % m) ||| 1

/-- `(bucket_idx + probe_step) & mask` (lookup.py:101, 272; insert.py:149-150). -/
def next (T : Table α) (b st : Nat) : Nat := (b + st) % 2 ^ 32 &&& (T.cap - 1)

/-- `bucket_idx * bucket_size + slot`. -/
def flat (T : Table α) (b s : Nat) : Nat := (b * T.bs + s) % 2 ^ 32

/-- Clamped gather from a `uint32` array. -/
def rd (l : List Nat) (i : Nat) : Nat := l.getD (min i (l.length - 1)) 0

/-- `bucket_fill_levels[bucket].astype(uint8)`. -/
def limit (T : Table α) (b : Nat) : Nat := rd T.fill b % 256

/-- `jnp.argmax` of a boolean array: first `True`, or 0. -/
def argmaxB (l : List Bool) : Nat := if l.any id then l.findIdx id else 0

/-- `fp_matches` (lookup.py:47-54): filled slots of the bucket whose fingerprint matches. -/
def fpMatches (H : Hasher α) (T : Table α) (x : α) (b : Nat) : List Bool :=
  tab T.bs fun s => decide (s < limit T b) && (rd T.fps (flat T b s) == H.fp x)

/-- One bucket comparison (lookup.py:53-95, and 182-252 for an active lane of the parallel version): compare the first
fingerprint match, then, only if it differs, all other fingerprint matches.  Returns (found, slot). -/
def scanBucket (H : Hasher α) (T : Table α) (x : α) (b : Nat) : Bool × Nat :=
  let m := fpMatches H T x b
  let first := argmaxB m
  let foundFast := m.any id && (gatherU T.table (flat T b first) == some x)
  let other := tab T.bs fun s => m.getD s false && (s != first)
  let needFallback := !foundFast && other.any id
  let eqs := tab T.bs fun s => other.getD s false && (gatherU T.table (flat T b s) == some x)
  let fb := if needFallback then (eqs.any id, argmaxB eqs) else (false, 0)
  (foundFast || fb.1, if foundFast then first else fb.2)

/-- `while_loop` of `_hashtable_lookup_internal` (lookup.py:38-41, 42-113, 115).  `fuel` bounds the number of
iterations; `lookupBucket` passes enough for the loop to end by itself. -/
def lookupLoop (H : Hasher α) (T : Table α) (x : α) : Nat → Nat → Nat → Bool → Nat → (Nat × Nat) × Bool
  | 0, b, s, found, _ => ((b, s), found)
  | fuel + 1, b, s, found, probes =>
    if !found && decide (probes < T.maxProbes) then
      let r := scanBucket H T x b
      let full := limit T b == T.bs
      let stop := r.1 || !full
      lookupLoop H T x fuel (if stop then b else next T b (step H T x))
        (if stop then (if r.1 then r.2 else limit T b) else 0) r.1
        (if stop then T.maxProbes else probes + T.bs)
    else ((b, s), found)

/-- `_hashtable_lookup_bucket_jit` (lookup.py:119-131). -/
def lookupBucket (H : Hasher α) (T : Table α) (x : α) : (Nat × Nat) × Bool :=
  lookupLoop H T x (T.maxProbes + 1) (start H T x) 0 false 0

/-- `_hashtable_lookup_jit` (lookup.py:134-138). -/
def lookup (H : Hasher α) (T : Table α) (x : α) : Nat × Bool :=
  let r := lookupBucket H T x
  (flat T r.1.1 r.1.2, r.2)

/-- State of one lane of `_hashtable_lookup_parallel_internal`. -/
structure Lane (α : Type u) where
  x : α
  bucket : Nat
  slot : Nat
  found : Bool
  probes : Nat
  active : Bool

/-- Loop body for one lane (lookup.py:171-294; the body is element-wise in the lanes).  For a lane that is not
`step_active` all its match masks are false, so nothing but `active` changes. -/
def laneStep (H : Hasher α) (T : Table α) (l : Lane α) : Lane α :=
  let stepActive := l.active && !l.found && decide (l.probes < T.maxProbes)
  if stepActive then
    let r := scanBucket H T l.x l.bucket
    let probes := l.probes + T.bs
    let cont := !r.1 && (limit T l.bucket == T.bs) && decide (probes < T.maxProbes)
    { x := l.x, bucket := if cont then next T l.bucket (step H T l.x) else l.bucket,
      slot := if cont then 0 else (if r.1 then r.2 else limit T l.bucket),
      found := l.found || r.1, probes := probes, active := cont }
  else { l with active := false }

/-- `while any(active)` (lookup.py:167-169, 296-299). -/
def laneLoop (H : Hasher α) (T : Table α) : Nat → List (Lane α) → List (Lane α)
  | 0, ls => ls
  | fuel + 1, ls => if ls.any (·.active) then laneLoop H T fuel (ls.map (laneStep H T)) else ls

/-- `_hashtable_lookup_parallel_internal` (lookup.py:141-299) for given initial `founds` and `active`. -/
def lookupLanes (H : Hasher α) (T : Table α) (xs : List α) (found active : List Bool) : List (Lane α) :=
  laneLoop H T (T.maxProbes + 1) (xs.zipIdx.map fun p =>
    { x := p.1, bucket := start H T p.1, slot := 0, found := found.getD p.2 false, probes := 0,
      active := active.getD p.2 false })

/-- `_hashtable_lookup_parallel_jit` (lookup.py:302-348) with an array mask.  (A scalar `filled = True` is the all-true
mask; a scalar `False` returns all zeros / not found.) -/
def lookupParallel (H : Hasher α) (T : Table α) (xs : List α) (filled : List Bool) : List (Nat × Bool) :=
  (lookupLanes H T xs (xs.map fun _ => false) filled).map fun l => (flat T l.bucket l.slot, l.found)

/-- `_hashtable_insert_jit` (insert.py:81-131).  Returns (table, inserted, index). -/
def insert (H : Hasher α) (T : Table α) (x : α) : Table α × Bool × Nat :=
  let r := lookupBucket H T x
  let b := r.1.1
  let s := r.1.2
  let can := !r.2 && decide (rd T.fill b ≤ s)
  let T' := if can then
      { T with
        table := scatterU1 T.table (flat T b s) x
        fps := scatterU1 T.fps (flat T b s) (H.fp x)
        fill := scatterU1 T.fill b (rd T.fill b + 1)
        size := (T.size + 1) % 2 ^ 32
        occ := if T.bs ≤ 32 then scatterU1 T.occ b (rd T.occ b ||| (2 ^ s % 2 ^ 32)) else T.occ }
    else T
  (T', can, flat T b s)

/-- `_resolve_slot_conflicts` (insert.py:54-78): the lowest lane aiming at each flat slot wins. -/
def resolve (n : Nat) (flats : List Nat) (active : List Bool) : List Bool :=
  let key := fun i => if active.getD i false then flats.getD i 0 else sentinel
  let sorted := stableSort (leBy key) (List.range n)
  let first := groupStarts (sameAll [leBy key]) sorted
  let winners := tab n fun p => first.getD p false && (key (sorted.getD p 0) != sentinel)
  scatterSet (List.replicate n false) sorted winners

/-- A (bucket, slot) position, `BucketIdx` (types.py). -/
structure Pos where
  bucket : Nat
  slot : Nat
  deriving DecidableEq, Inhabited

/-- `_advance` (insert.py:145-163); the fill level is read from the table before the insertion. -/
def advance (T : Table α) (st : Nat) (p : Pos) : Pos :=
  if T.bs - 1 ≤ p.slot then { bucket := next T p.bucket st, slot := limit T (next T p.bucket st) }
  else { bucket := p.bucket, slot := (p.slot + 1) % 256 }

/-- Winner flags for the current positions (insert.py:174-181, 197-203). -/
def winners (T : Table α) (upd : List Bool) (pos : List Pos) : List Bool :=
  resolve upd.length (pos.map fun p => flat T p.bucket p.slot)
    (tab upd.length fun i => upd.getD i false && decide ((pos.getD i default).slot < T.bs))

/-- `pending` for the current positions (insert.py:182-185, 205-208). -/
def pendings (T : Table α) (upd : List Bool) (pos : List Pos) : List Bool :=
  tab upd.length fun i => (upd.getD i false && !(winners T upd pos).getD i false) ||
    (upd.getD i false && !decide ((pos.getD i default).slot < T.bs))

/-- The conflict-resolution `while_loop` (insert.py:187-213): at most `max_probes` rounds; every pending lane advances. -/
def placeLoop (T : Table α) (steps : List Nat) (upd : List Bool) : Nat → List Pos → List Pos
  | 0, pos => pos
  | rounds + 1, pos =>
    let pend := pendings T upd pos
    if pend.any id then
      placeLoop T steps upd rounds
        (tab upd.length fun i => if pend.getD i false then advance T (steps.getD i 0) (pos.getD i default)
          else pos.getD i default)
    else pos

/-- `x.at[idx].add(vals)`, out-of-range updates dropped. -/
def scatterAdd (xs : List Nat) (idx vals : List Nat) : List Nat :=
  (idx.zip vals).foldl (fun a p => a.modify p.1 (· + p.2)) xs

/-- `_hashtable_parallel_insert_internal` (insert.py:134-255): final positions, success flags, new table. -/
def place (H : Hasher α) (T : Table α) (xs : List α) (pos0 : List Pos) (upd : List Bool) :
    Table α × List Pos × List Bool :=
  let n := upd.length
  let pos := placeLoop T (xs.map (step H T)) upd T.maxProbes pos0
  let pend := pendings T upd pos
  let ok := tab n fun i => upd.getD i false && !pend.getD i false && decide ((pos.getD i default).slot < T.bs)
  let idx := tab n fun i => if ok.getD i false then flat T (pos.getD i default).bucket (pos.getD i default).slot
    else T.fps.length
  let T' := { T with
    table := scatterSet T.table idx xs
    fps := scatterSet T.fps idx (xs.map H.fp)
    fill := scatterAdd T.fill (pos.map (·.bucket)) (ok.map Bool.toNat)
    size := (T.size + ok.countP id) % 2 ^ 32
    occ := if T.bs ≤ 32 then scatterAdd T.occ (pos.map (·.bucket))
        (tab n fun i => if ok.getD i false then 2 ^ (pos.getD i default).slot % 2 ^ 32 else 0)
      else T.occ }
  (T', pos, ok)

/-- `__getitem__` / `_hashtable_getitem_jit` (lookup.py:351-353). -/
def getitem (T : Table α) (i : Nat) : Option α := gatherU T.table i

end HashTable
