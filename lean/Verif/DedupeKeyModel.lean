import Verif.DedupeSort
import Verif.BackendModel

/-!
# `unique_key` of every dtype: NaN and integer keys (C84)

A float key is `some k` (a number or `+inf`) or `none` (NaN).
-/

namespace Dedupe

open SortGroup

variable {K : Type u} [KeyTop K]

/-- The part of `finish` after the candidates (hash_utils.py:289-312 and 438-461). -/
def finishC (n : Nat) (filled : List Bool) (sorted : List Nat) (starts : List Bool) (candidates : List Nat) : List Bool × List Nat :=
  let gid := groupIds starts
  let perGroup := segMin n n gid candidates
  let perGroup := tab n fun g => if perGroup.getD g 0 = n then 0 else perGroup.getD g 0
  let repSorted := tab n fun p => perGroup.getD (gid.getD p 0) 0
  let rep := scatterSet (List.replicate n 0) sorted repSorted
  let rep := tab n fun i => if filled.getD i false then rep.getD i 0 else 0
  (tab n fun i => filled.getD i false && (i == rep.getD i 0), rep)

/-- `min`, which propagates NaN (the combiner of `.at[].min`). -/
def minN : Option K → Option K → Option K
  | some a, some b => some (if KeyCmp.le a b then a else b)
  | _, _ => none

/-- `==`, false on NaN. -/
def eqN : Option K → Option K → Bool
  | some a, some b => eqK a b
  | _, _ => false

/-- `full(inf).at[gid].min(vals)` (hash_utils.py:275-279, 423-427). -/
def segMinN (n : Nat) (gids : List Nat) (vals : List (Option K)) : List (Option K) :=
  tab n fun g => ((gids.zip vals).filter (fun x => x.1 == g)).foldl (fun m x => minN m x.2) (some KeyPad.inf)

/-- `finish` with keys that may be NaN (hash_utils.py:259-312 and 408-461). -/
def finishN (n : Nat) (filled : List Bool) (ks : List (Option K)) (sorted : List Nat) (starts : List Bool) : List Bool × List Nat :=
  let gid := groupIds starts
  let maskedKey := tab n fun p => if filled.getD (sorted.getD p 0) false then ks.getD (sorted.getD p 0) (some KeyPad.inf) else some KeyPad.inf
  let minKeys := segMinN n gid maskedKey
  finishC n filled sorted starts (tab n fun p =>
    if eqN (maskedKey.getD p (some KeyPad.inf)) (minKeys.getD (gid.getD p 0) (some KeyPad.inf)) then sorted.getD p 0 else n)

section Modes

variable (fin : List Nat → List Bool → List Bool × List Nat)

/-- `dedupeRows` with what follows the sort as a parameter (hash_utils.py:99-312). -/
def dedupeRowsG (mode : Mode) (n wc : Nat) (rows : List (List Nat)) (filled : List Bool) : List Bool × List Nat :=
  let full := sortPasses (rowLes filled rows wc) (List.range n)
  let fullRes := fin full (groupStarts (sameAll (rowLes filled rows wc)) full)
  if mode = .exact ∨ wc ≤ 8 then fullRes
  else
    let sorted := sortPasses (sigLes filled rows) (List.range n)
    if mode = .safe ∧ collision filled rows (sameAll (sigLes filled rows)) sorted = true then fullRes
    else fin sorted (groupStarts (sameAll (sigLes filled rows)) sorted)

/-- `dedupePairsFrom` with what follows the sort as a parameter (hash_utils.py:315-503). -/
def dedupePairsG (mode : Mode) (n wc : Nat) (h1 h2 : List Nat) (rows : List (List Nat)) (filled : List Bool) (sorted : List Nat) : List Bool × List Nat :=
  let fromSorted := fin sorted (groupStarts (sameAll (pairLes filled h1 h2)) sorted)
  match mode with
  | .exact => dedupeRowsG fin .exact n wc rows filled
  | .approx => fromSorted
  | .safe => if collision filled rows (sameAll (pairLes filled h1 h2)) sorted then dedupeRowsG fin .safe n wc rows filled else fromSorted

end Modes

/-- De-duplication of a batch whose keys may be NaN, as called by `parallel_insert` (insert.py:396-437); default sort backend. -/
def dedupeN {α : Type v} (mode : Mode) (E : Enc α) (xs : List α) (filled : List Bool) (ks : List (Option K)) : List Bool × List Nat :=
  dedupePairsG (finishN xs.length filled ks) mode xs.length E.wc (xs.map E.h1) (xs.map E.h2) (xs.map E.words) filled
    (sortPasses (pairLes filled (xs.map E.h1) (xs.map E.h2)) (List.range xs.length))

/-- Natural number to a float with `p` bits of precision, round to nearest, ties to even. -/
def roundNat (p n : Nat) : Nat :=
  if n < 2 ^ p then n
  else
    let e := n.log2 + 1 - p
    let q := n / 2 ^ e
    let r := n % 2 ^ e
    (if 2 ^ e < 2 * r ∨ (2 ^ e = 2 * r ∧ q % 2 = 1) then q + 1 else q) * 2 ^ e

/-- Integer to float. -/
def roundInt (p : Nat) (n : Int) : Int := if 0 ≤ n then (roundNat p n.toNat : Int) else -(roundNat p (-n).toNat : Int)

/-- Extended integers: values of integer keys after `jnp.where(filled, key, jnp.inf)`, which converts them to the default float type
(hash_utils.py:274, 422): 24 bits of precision, 53 with `jax_enable_x64`.  `none` is `+inf`. -/
def intKey (p : Nat) (n : Int) : Option Int := some (roundInt p n)

end Dedupe

namespace HashTable

open Dedupe

variable {α : Type u} [DecidableEq α] {K : Type v} [KeyTop K]

/-- `parallel_insert` with a float `unique_key` that may hold NaN (insert.py:373-552). -/
def parallelInsertN (be : Backend) (mode : Mode) (H : Hasher α) (T : Table α) (xs : List α) (filled : List Bool) (ks : List (Option K)) : PResult α :=
  parallelInsertWith be H T xs filled (dedupeN mode H.toEnc xs filled ks)

end HashTable
