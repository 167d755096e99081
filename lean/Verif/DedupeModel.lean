import Verif.SortGroup

/-!
# Model of in-batch de-duplication, `xtructure/hashtable/hash_utils.py`

A batch of `n` lanes.  `filled`, hashes and keys are arrays of length `n` (lists); a lane's value is given
by its `uint32ed` row (a list of words).  Uninitialised reads do not occur: all gathers are in range.
-/

namespace Dedupe

open SortGroup

variable {K : Type u} [KeyTop K]

/-- `jnp.uint32(0xFFFFFFFF)`, the sort key given to unfilled lanes. -/
def sentinel : Nat := 2 ^ 32 - 1

/-- `XTRUCTURE_HASHTABLE_DEDUPE_MODE` (hash_utils.py:46-73; "fast" is "safe"). -/
inductive Mode | approx | safe | exact
  deriving DecidableEq

/-- `a == b` on key values. -/
def eqK (a b : K) : Bool := KeyCmp.le a b && KeyCmp.le b a

/-- `select(filled, keys, sentinel)` (hash_utils.py:143-150, 199-203, 361-365). -/
def masked (filled : List Bool) (keys : List Nat) (i : Nat) : Nat :=
  if filled.getD i false then keys.getD i 0 else sentinel

/-- Comparison used by one `argsort` pass over a `uint32` key array. -/
def leBy (key : Nat → Nat) (i j : Nat) : Bool := decide (key i ≤ key j)

/-- The part shared by `_compute_unique_mask_from_uint32eds` (hash_utils.py:259-312) and
`_compute_from_sorted` (hash_utils.py:408-461): group ids, per-group minimum key, per-group
representative, scatter back to lane order, mask.  `sorted` is `sorted_indices`, `starts` is
`is_group_start`.  Simplification: a scalar `unique_key` is passed already broadcast. -/
def finish (n : Nat) (filled : List Bool) (key : Option (List K)) (sorted : List Nat) (starts : List Bool) :
    List Bool × List Nat :=
  let gid := groupIds starts                                                       -- 262-263
  let candidates := match key with
    | some ks =>                                                                   -- 267-285
      let maskedKey := tab n fun p =>
        if filled.getD (sorted.getD p 0) false then ks.getD (sorted.getD p 0) KeyPad.inf else KeyPad.inf
      let minKeys := segMinK n gid maskedKey
      tab n fun p => if eqK (maskedKey.getD p KeyPad.inf) (minKeys.getD (gid.getD p 0) KeyPad.inf)
        then sorted.getD p 0 else n
    | none => tab n fun p =>                                                       -- 287
        if filled.getD (sorted.getD p 0) false then sorted.getD p 0 else n
  let perGroup := segMin n n gid candidates                                        -- 289-293
  let perGroup := tab n fun g => if perGroup.getD g 0 = n then 0 else perGroup.getD g 0  -- 294-298
  let repSorted := tab n fun p => perGroup.getD (gid.getD p 0) 0                   -- 299
  let rep := scatterSet (List.replicate n 0) sorted repSorted                      -- 301-305
  let rep := tab n fun i => if filled.getD i false then rep.getD i 0 else 0        -- 306-309
  (tab n fun i => filled.getD i false && (i == rep.getD i 0), rep)                 -- 311-312

/-- Column comparisons of `_full_row_sort` (hash_utils.py:143-150). -/
def rowLes (filled : List Bool) (rows : List (List Nat)) (wc : Nat) : List (Nat → Nat → Bool) :=
  (List.range wc).map fun c => leBy (masked filled (rows.map fun r => r.getD c 0))

/-- One step of `_sig_body` (hash_utils.py:188-195). -/
def sigStep (h : Nat × Nat × Nat × Nat) (col : Nat) : Nat × Nat × Nat × Nat :=
  ((h.1 * 0x9E3779B1 + col) % 2 ^ 32, (h.2.1 * 0x85EBCA6B + col) % 2 ^ 32,
   ((h.2.2.1 ^^^ col) * 0xC2B2AE35) % 2 ^ 32, ((h.2.2.2 ^^^ col) * 0x278DDE6E) % 2 ^ 32)

/-- The 128-bit signature of a row (hash_utils.py:178-197; only used for rows of more than 8 words). -/
def signature (row : List Nat) : Nat × Nat × Nat × Nat :=
  let c := row.getD 0 0
  row.tail.foldl sigStep (c, c, c, c)

/-- Comparisons of the signature sort (hash_utils.py:199-209). -/
def sigLes (filled : List Bool) (rows : List (List Nat)) : List (Nat → Nat → Bool) :=
  [leBy (masked filled (rows.map fun r => (signature r).1)),
   leBy (masked filled (rows.map fun r => (signature r).2.1)),
   leBy (masked filled (rows.map fun r => (signature r).2.2.1)),
   leBy (masked filled (rows.map fun r => (signature r).2.2.2))]

/-- `any(same ∧ sorted_filled[1:] ∧ sorted_filled[:-1] ∧ ¬adj_equal)`: two adjacent filled entries with
equal sort keys and different rows (hash_utils.py:228-248, 475-491).  The `has_dups` guard around the
check does not change its value. -/
def collision (filled : List Bool) (rows : List (List Nat)) (same : Nat → Nat → Bool) (sorted : List Nat) : Bool :=
  (List.zipWith (fun a b => same a b && filled.getD a false && filled.getD b false &&
    !(rows.getD a [] == rows.getD b [])) sorted sorted.tail).any id

/-- `_compute_unique_mask_from_uint32eds` (hash_utils.py:99-312); `wc` is `word_count`. -/
def dedupeRows (mode : Mode) (n wc : Nat) (rows : List (List Nat)) (filled : List Bool) (key : Option (List K)) :
    List Bool × List Nat :=
  let full := sortPasses (rowLes filled rows wc) (List.range n)
  let fullRes := finish n filled key full (groupStarts (sameAll (rowLes filled rows wc)) full)
  if mode = .exact ∨ wc ≤ 8 then fullRes
  else
    let sorted := sortPasses (sigLes filled rows) (List.range n)
    if mode = .safe ∧ collision filled rows (sameAll (sigLes filled rows)) sorted = true then fullRes
    else finish n filled key sorted (groupStarts (sameAll (sigLes filled rows)) sorted)

/-- Comparisons of the hash-pair sort (hash_utils.py:361-394). -/
def pairLes (filled : List Bool) (h1 h2 : List Nat) : List (Nat → Nat → Bool) :=
  [leBy (masked filled h1), leBy (masked filled h2)]

/-- `_compute_unique_mask_from_hash_pairs` (hash_utils.py:315-503) for a given result `sorted` of the sort
by (h1, h2): `stable_argsort` and `lax_stable` give `sortPasses (pairLes …) (range n)`, `lax_unstable` gives
some permutation ordered by (h1, h2). -/
def dedupePairsFrom (mode : Mode) (n wc : Nat) (h1 h2 : List Nat) (rows : List (List Nat)) (filled : List Bool)
    (key : Option (List K)) (sorted : List Nat) : List Bool × List Nat :=
  let fromSorted := finish n filled key sorted (groupStarts (sameAll (pairLes filled h1 h2)) sorted)
  match mode with
  | .exact => dedupeRows .exact n wc rows filled key                               -- 345-353
  | .approx => fromSorted                                                          -- 503
  | .safe =>                                                                       -- 465-501
    if collision filled rows (sameAll (pairLes filled h1 h2)) sorted then dedupeRows .safe n wc rows filled key
    else fromSorted

/-- The default sort backend (`stable_argsort`, hash_utils.py:369-382). -/
def dedupePairs (mode : Mode) (n wc : Nat) (h1 h2 : List Nat) (rows : List (List Nat)) (filled : List Bool)
    (key : Option (List K)) : List Bool × List Nat :=
  dedupePairsFrom mode n wc h1 h2 rows filled key (sortPasses (pairLes filled h1 h2) (List.range n))

end Dedupe
