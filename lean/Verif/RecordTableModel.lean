import Verif.Records
import Verif.HTProps

/-!
# `HashTable` of dataclass instances

`HashTableModel` holds a list of items.  In the code `table.table` is one instance of the value class with one batch axis of
`(capacity + 1) * bucket_size` slots, written field by field: by `table.table.at[i].set(input)` in `insert` and by one scatter per field in
`parallel_insert` (`_scatter_set_xtructurable_drop`).  This file models those writes; `RecordTable.lean` proves that the table refines
the list of records.
-/

namespace Records

open Agg NArr SoA

variable {α : Type} [Inhabited α] {V : Type} [DecidableEq V]

/-- `HashTable` (table.py:61-81) with its `table` as the instance it is. -/
structure RTable (α : Type) where
  cap : Nat
  bs : Nat
  maxProbes : Nat
  size : Nat
  store : Tree α
  fill : List Nat
  occ : List Nat
  fps : List Nat

/-- Number of slots (table.py:42). -/
def RTable.slots (R : RTable α) : Nat := (R.cap + 1) * R.bs

/-- The table of items it stands for: slot `i` holds the item of record `i` of the instance, which is what `table.table[i]` reads
(`table_read`).  `item` says what is compared and hashed: it sends a record to the item it stands for, such that `==` of records is equality
of items (for instance the values of all fields).  Simplification: the comparisons of the probe loops (lookup.py:53-95, 182-252) go through
this view, as all they do with `table.table` is to read records at indices and compare them. -/
def RTable.view (item : Tree α → V) (R : RTable α) : HashTable.Table V :=
  ⟨R.cap, R.bs, R.maxProbes, R.size, (recs R.slots R.store).map item, R.fill, R.occ, R.fps⟩

/-- `_hashtable_build_jit` (table.py:23-58); `none`: `dataclass.default` raises. -/
def RTable.build (c : Cls α) (capacity bs mult : Nat) (maxProbes : Option Nat) : Option (RTable α) :=
  let cap := HashTable.internalCap capacity bs mult
  (defaultInst c [(cap + 1) * bs]).map fun x =>
    { cap := cap, bs := bs, maxProbes := maxProbes.getD (cap * bs), size := 0, store := x,
      fill := List.replicate (cap + 1) 0, occ := List.replicate (cap + 1) 0, fps := List.replicate ((cap + 1) * bs) 0 }

/-- `_hashtable_insert_jit` (insert.py:81-131) of a single instance. -/
def RTable.insert (item : Tree α → V) (H : HashTable.Hasher V) (ord : Order) (R : RTable α) (x : Tree α) : RTable α × Bool × Nat :=
  let r := HashTable.lookupBucket H (R.view item) (item x)
  let b := r.1.1
  let s := r.1.2
  let can := !r.2 && decide (HashTable.rd R.fill b ≤ s)
  let R' := if can then
      { R with
        store := atSet (ord []) (.basic [.int (HashTable.flat (R.view item) b s)]) [] R.store x
        fps := Jax.scatterU1 R.fps (HashTable.flat (R.view item) b s) (H.fp (item x))
        fill := Jax.scatterU1 R.fill b (HashTable.rd R.fill b + 1)
        size := (R.size + 1) % 2 ^ 32
        occ := if R.bs ≤ 32 then Jax.scatterU1 R.occ b (HashTable.rd R.occ b ||| (2 ^ s % 2 ^ 32)) else R.occ }
    else R
  (R', can, HashTable.flat (R.view item) b s)

/-- `_scatter_set_xtructurable_drop` (insert.py:41-51): one scatter per field, indices outside the array dropped. -/
def scatterDrop (ord : Order) (store : Tree α) (idx : List Nat) (values : Tree α) : Tree α :=
  atSet (ord [idx.length]) (.adv [idx.length] [idx.map Int.ofNat]) [] store values

variable {K : Type} [KeyTop K]

/-- `_hashtable_parallel_insert_jit` (insert.py:383-552) of a batch of `n` instances, any backend: the reservation decides, from the records,
which lanes get which slots (`safe` below, insert.py:29-39; 221-226, 286-291 and 356-361); the fields of those lanes are then scattered. -/
def RTable.parallelInsert (item : Tree α → V) (be : HashTable.Backend) (mode : Dedupe.Mode) (H : HashTable.Hasher V) (ord : Order) (R : RTable α)
    (n : Nat) (inputs : Tree α) (filled : List Bool) (key : Option (List K)) : RTable α × HashTable.PResult V :=
  let xs := (recs n inputs).map item
  let dd := Dedupe.dedupe mode H.toEnc xs filled key
  let p := HashTable.parallelInsertWith be H (R.view item) xs filled dd
  let safe := HashTable.safeIdx (R.view item) (HashTable.piOk H (R.view item) be xs filled dd) (HashTable.piFin H (R.view item) be xs filled dd)
  ({ R with store := scatterDrop ord R.store safe inputs, fps := p.table.fps, fill := p.table.fill, size := p.table.size, occ := p.table.occ }, p)

/-- `table[i]` (lookup.py:351-353). -/
def RTable.getitem (R : RTable α) (i : Nat) : Option (Tree α) := SoA.getitem R.store (.basic [.int i])

/-- Operations that change a table. -/
inductive TOp (α K : Type) where
  | insert (x : Tree α)
  | parallelInsert (be : HashTable.Backend) (mode : Dedupe.Mode) (n : Nat) (inputs : Tree α) (filled : List Bool) (key : Option (List K))

/-- Effect of an operation. -/
def RTable.run (item : Tree α → V) (H : HashTable.Hasher V) (ord : Order) (R : RTable α) : TOp α K → RTable α
  | .insert x => (R.insert item H ord x).1
  | .parallelInsert be mode n xs filled key => (R.parallelInsert item be mode H ord n xs filled key).1

/-- A history. -/
def RTable.exec (item : Tree α → V) (H : HashTable.Hasher V) (ord : Order) (R : RTable α) (ops : List (TOp α K)) : RTable α :=
  ops.foldl (RTable.run item H ord) R

end Records
