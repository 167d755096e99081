# Formal model of tinker495/Xtructure in Lean 4 — design

## 1. Trusted base

* **Lean 4.33.0 kernel.** Every theorem of `MANIFEST.json` depends on a subset of the three standard axioms
  `propext`, `Classical.choice`, `Quot.sound` (checked with `#print axioms` over all of them). No own axioms, no
  `native_decide`, no `bv_decide`. Concrete witnesses (counterexamples, non-vacuity examples) use `decide +kernel`
  or `rfl`, i.e. kernel evaluation.
* **The reading of the Python source.** The model is written by hand from `/repo`; every model definition cites file
  and lines. Nothing was executed.
* **The semantics assumed for libraries**, each written out as a definition so that it can be inspected:
  - `Verif/Jax.lean`: gather clamps an out-of-range index, negative *signed* indices count from the end first, unsigned
    ones never wrap; scatter drops out-of-range updates; uint32 arithmetic is modulo 2^32; shifts by 32 or more give 0;
    `argsort`/`lax.sort` are stable sorts; `while_loop`/`fori_loop`/`scan` are loops; Python `int` is exact.
  - scatter with duplicate indices: the order is unspecified in XLA. The model takes the order as an argument and the
    theorems hold for every order (or show there are no duplicates).
  - `Verif/NArr.lean`, `Verif/JnpModel.lean`, first half of `Verif/SoAAxisModel.lean`: the `jax.numpy` functions used on
    fields (`concatenate`, `stack`, `take`, `pad`, `where`, `reshape`, `transpose`, `moveaxis`, `flip`, `roll`, `rot90`,
    `repeat`, `tile`, `broadcast_to`, …), numpy indexing with a broadcast of the advanced indices.
  - `Verif/KeyOrd.lean`: `KeyCmp` is a comparison alone, `KeyLE` a total preorder; `KeyPad` is a comparison with `+inf` and `isfinite`
    (all the queue model needs), `KeyTop` says that `+inf` is greatest. NaN is not in these orders; C81 (BGPQ keys), C73 (items of the hash table) and C84 (`unique_key`) treat it.
    `KeyTop` assumes nothing about `isfinite` (so `-inf` is allowed); `KeyInf`, used in the BGPQ theorems, says that the
    finite keys are those below `+inf` (see C71 for `-inf`).
  - Triton (`Verif/BackendModel.lean`): `atomic_or` is atomic and returns the old word; the plain loads in the kernel may
    return any earlier value of the word they read (stale reads); any lane may take the next step. Pallas: programs run one
    after the other in any order over disjoint outputs.
  - an `.npz` file is a finite map from names to arrays; numpy appends `.npz` to paths that lack it; opening for writing truncates, members are written in the
    order of the dictionary, the archive directory last; a file without directory cannot be loaded; an exception while writing closes the archive with the
    members written so far (C90).

## 2. Modelling conventions

* An xtructure value class is an arbitrary type `α` in the container models (Stack, Queue, BGPQ, HashTable). C46 shows that
  field-wise gather/scatter on instances is the same as record-wise gather/scatter, and C88 carries this through: the containers over
  instances (trees of arrays, one scatter per field) refine the containers over lists of records, for every history. `HashWords.lean` instantiates the hash table with the real hash functions and the real
  word view of instances.
* `none` in `Option` results is a Python exception. dtypes are not tracked (exceptions: widths in bit packing, uint32/int32 index
  arithmetic, uint8 fill levels, dtype strings in IO); a dtype mismatch in a field is not modelled outside C54.
* Loops become recursion on a fuel argument equal to the bound in the code.
* Files: `*Model.lean` hold definitions that model code; `*Props.lean` (and `SoA*.lean`) hold specifications and theorems;
  `*Lemmas.lean` hold helper lemmas. Specifications (`IsBest`, `Stored`, `MovesTo`, `item`, `FieldRel`, `RInv`, …) do not use
  the model's helper functions.
* A theorem named `*_partial` proves part of its property. A theorem named `*_false` proves, on a concrete reachable input, that the
  unrestricted property does not hold of the code. Each file ends with `example`s that instantiate the hypotheses.

## 3. Per-property plan

| id | model | proof |
|----|-------|-------|
| C01, C02 | `StackModel`: store list, uint32 size, push/pop/peek/getitem with i32/u32 index arithmetic and clamping | refinement to a list for every operation list (simulation relation); overflow: the store is the first `max_size` items |
| C03–C05 | `QueueModel`: store, head, tail | refinement to (history, head); C04 is false (slots are not reclaimed): negation by witness, `_partial` under total enqueued ≤ max_size |
| C06–C12 | `BgpqModel`: root row, rows, buffer; insert (sort, root merge, buffer merge, heapify path), delete_mins (last row/buffer, sift-down), make_batched | invariant (sorted rows, heap order, finiteness) preserved by every operation; contents as a multiset (`List.Perm`); C11 is false: negation, partial bound |
| C13–C15 | `MergeModel`, `MergeKV`: sort merge, loop merge, merge-path partition, block-parallel kernel, key–value kernel with its value packing | all equal to the recursive stable merge; uniqueness of the partition point |
| C16–C22, C25–C27 | `HashTableModel`, `BackendModel`: table, fill levels, fingerprints, lookup loop with fuel, insert, parallel insert (dedupe, parallel lookup, rounds, scatter), three reservation back-ends | invariant over all histories and all back-ends: findability (all earlier buckets on the path are full), uniqueness, fill-level prefix; C22 and C27 are false: negations on reachable tables, partial theorems; `HTRetry`: each call with a free slot inserts something, so repeated calls insert everything that fits |
| C23 | `DedupeModel`: hash-pair sort with sentinel, exact fallback | exact, in every mode, unless a filled row encodes to the sentinel or (mode approx) hash pairs collide; negations there |
| C24 | `ProbePath`: odd step modulo 2^k | injectivity of i ↦ b+i·s mod 2^k |
| C28 | `BackendModel.triton*`: transition system, one atomic per step, any lane may step, stale reads allowed | invariant `RInv` over all schedules; wait-freedom bound |
| C29 | `BackendModel.pallas*`: rounds over the sorted pending list | the same `RInv` over rounds |
| C30–C32 | `HashModel`, `HashWords`: hash.py on `BitVec 32` lists, byte→word packing | fold fusion; explicit inverse; injectivity |
| C33–C36, C41 | `BitpackModel`: block packing, accessors, XLA and Pallas kernels | reduction to a bit stream (`testBit`) |
| C37–C40 | `AggModel`: layout, pack, unpack, unpack_field, nested classes; for indices outside the field `AggOut` (specification `recordBits`, `readAt`) | the same bit stream; injectivity for C39 |
| C42–C44 | `UniqueModel`: sort-based unique_mask with the four mixing hashes | exactness under `NoCollision`, which holds for ≤ 4 words; negations |
| C45 | `UpdateModel`: scatter-min of positions | direct |
| C46–C48 | `SoAModel`: trees of shape+data arrays | index laws on `sub`; `Conf b c x` = every field has shape batch ++ intrinsic; `item j x` = record j |
| C49 | `IoModel`: key/value encoding, nesting by dotted names, packed fields | induction over the class; negations for reserved names, truncation, suffix, dtype |
| C50 | `SoAEq` | broadcasting comparison characterised for all batch shapes; negations |
| C51 | `PytreeModel`: dataclass.py flatten/unflatten/replace on attribute dictionaries | direct, over all field lists |
| C52, C53 | `SoAAxisModel`: the remaining functions of shape_ops, spatial_ops, batch_ops, comparison_ops, fill_ops, type_ops | every axis function is a `Rearranges` (position map on batch indices) on one field, lifted to instances |
| C54–C58 | `DescModel`: field descriptors with all their attributes, classes as lists of descriptors, `check_invariants`, constructors, `default`, `random` (generator as a parameter), decoration with its recursion into view classes (fuel = interpreter stack), unpacking to declared dtypes | acceptance characterised exactly; induction over the class; divergence for every fuel (C56); modular arithmetic, exact both ways (C58) |
| C59 | `CacheModel`: a heap of mutable instances with the three cache attributes; operations new/assign/copy/read | invariant over histories (every cache equals the recomputed value); negations for assignments after a read |
| C60 | `SoALaws2`: Python's sequence iteration over the modelled `__getitem__` (which clamps, like JAX) | direct; prefix proved, termination refuted |
| C61 | the operations of C46, C47, C52 composed | `SoALaws*`: record maps compose to the identity, then extensionality of instances |
| C62 | `HTConfluence`: histories of single inserts and batches over all back-ends and modes | invariant: stored = offered, by induction on the history; counting for the room; negation for full tables |
| C63 | `BgpqOrder`: two runs side by side, values of different types | simulation: equal key counts below every key are kept by each step |
| C64 | `Capacity`: `internalCap`, `build` | arithmetic, then C62 / C63 |
| C65 | `SoAStr`: `get_str` up to the formatting of one record | direct, from C46 |
| C66 | `BgpqPad`: padding of `delete_mins` | invariant over all stored pairs, padding included; false part on a concrete history |
| C67 | the operations of C46, C47, C52 on scalar classes, against the same `jnp` functions on arrays whose entries are records | free theorem: each `jnp` function commutes with every renaming of entries (`Natural`), hence with the projections to fields |
| C68 | `SoAPadMode`: `pad` for the copying modes, `jnp.pad` as an index map per axis | the index map is the only continuation with the mode's law; then as C52 (`Rearranges`) |
| C69 | `SoABlock`: `jnp.block` (`blockS`), `tree_transpose` as cutting the flat list of leaves, `block` | naturality of `jnp.block`; grid by two uses of the `concatenate` specification |
| C70 | `UniqueLegacy`: `jnp.unique(axis=0, size=n)` as JAX computes it, scatter-min, winners | group ids identify equal rows (`groupIds_eq_iff`), are contiguous; segment minima |
| C71 | `BgpqModel` over `KeyTop` (no assumption on `isfinite`), `SignedKey` with a least key that is not finite | concrete reachable histories refute; C07/C08 for keys without `-inf` |
| C72 | `HashTableModel` with `bs = 256` | one-bucket invariant by induction over the inserts; `full_bucket_reads_empty` for any table |
| C73 | `HashModel` with element types per leaf (`Ty`, IEEE equality `feq`), table model over an arbitrary `==` | bit-level injectivity without zeros; one-word difference for a negated zero; lookup with a `==` that is never true |
| C74 | `BitpackModel.setUnpacked/fromUnpacked` | induction over the arguments; the direct path depends only on the known names |
| C75 | `XnpModel.ListFn.call`, `where`, `updateOnCondition` | case analysis over the argument list, reduction to C46 |
| C76 | `XnpModel.takeTree/dcConcat` | naturality of take/concatenate on arrays of records; index arithmetic of row-major order |
| C77 | `ClsModel.declare/construct/getattr` | attribute tables of every decorator stage; case analysis over all names |
| C78 | `ClsModel.declare` with a base, `default`, `getitem` | the descriptor table is inherited; induction over the fields |
| C79 | `ClsModel.extract/declare` | the declaration depends only on names and descriptors |
| C80 | `TypeOpsModel.canCast/resultTypeInst`: leafwise `tree_map`, fallback that broadcasts `to` | leaves of `zip`/`transpose` |
| C81 | `NKey`: keys with NaN in the order of `lax.sort`; `IKey`: with IEEE `<=` | simulation of the queue on NaN-free keys (`NaN ↦ +inf`), then `bgpq_refines`; counterexample for the kernels |
| C82 | `resolve`: all parsing functions and the choice of a strategy; queue with the merges as parameters (`BgpqWith`) | every merge of the queue gets sorted blocks (invariant `HGood`), C13 and `merge_kv_eq`, packing round trip with offsets |
| C83 | `HSetup.select`: parsing and dispatch; `dedupeBy`: three sort backends; `call`/`calls`: histories | the specification `BehavesAll` (a set) determines all answers; finish of the sort is independent of the order within groups; C62 for the contents |
| C84 | `finishN`: the segmented minimum with NaN propagation; `roundInt`: integer to float; `parallelInsertN`, `ReachableN` | groups with NaN give lane 0, others as C23 (`finishN_rep`); monotonicity of rounding; the table lemmas for any selection with distinct lanes |
| C85 | `hashWay`, `packWay`: the parsers; `Setup.viewPlain`, `Setup.viewAgg`: bytes, words and hashes of an instance under settings; `itemHasher` | case analysis of the parsers; C30 for streaming, C41 for the kernels, C39 and `packedWords_row` for the packed words; C83 (3) with two hashers |
| C86 | `specWalk`, `schema`, `unpackFieldNamed`; specification: `Cls.leaves`, `storedBit`, `intBit` | induction on the class for the specs; C38's cells for the bits; `split_join` for the names; C37 and C40 for the values |
| C87 | `uniqueCall`, `coreC`, `columnsC`, `KeyArg`, `legacyMaskN`; specification: `ValidC`, `PreferredC`, `RowEq`, `IsRepC`, `indexList` | the sorted-groups argument of C42 with an equality finer than the order (`groupFirst_nan`, `group_place`); case analysis for errors; equality with C42's model for `uint32` |
| C88 | `RStack`, `RQueue`, `RTable` on top of `SoA.getitem`/`SoA.atSet`; `Bgpq.pmap`/`mapV`; specification: `StackSpec`, `QueueSpec` on records, `Holds`, `HashTable.exec` | simulation: records of the store = list store (`set_one`, `set_many`, `set_distinct`, `get_one`, `get_many`); BGPQ: naturality of every function in the values |
| C89 | `TakeModeModel`: `takeModeTree`, `takeAlongTree` over `NArr.takeMode`, `NArr.alongMode` | position functions of the modes, one field, then lifted to instances; negation by example |
| C90 | `IoCrashModel`: `Call.run`, `loadDisk`, `Stop` | the class name is the last member written, so a shorter archive has no class name; induction on the history |
| C91 | `IoModel`: `save` with one class, `load` with another | the keys below one field name determine the field (zones), induction on the new class; paths of names as specification |
| C92 | `BgpqModel.insert` for blocks of any length | the heap invariant without the length of the buffer; exact count of what the buffer split loses |
| C93 | `BgpqDtypeModel`: dtypes of the traced insert and delete; `insertConv` sorts before converting | case analysis of the promotion lattice under induction on the history; sorting commutes with an order-preserving conversion, then the C06–C08 theorems; binary16 rounding of integers proved monotone |
| C94 | `Underflow`: the Stack/Queue models against a specification with live items and a debt | simulation by induction on the history; wrapped `uint32` counters, scatters at negative indices land in slots that are overwritten before they become live |
| C95 | `Search`: the user's loop over the HashTable and Bgpq models | simulation by induction on the history, composed from C16–C21 (indices stable, inserted flags), C06–C08, C22, C23 |
| C96 | `SearchCost`: the user's loop over the HashTable, Update and Bgpq models | simulation by induction on the history, composed from C16–C23, C45, C06–C08; consequences proved from the specification alone |
| C97 | `DescSpellModel`: classes as written (spelling of dtype and shape, x64 switch), decoration, default, random, validation, shape | induction over the class; equality with the `Desc` model for tuples; the false parts refuted for every class |
| C98 | `Methods`: the method registry and the public dispatch for the same calls; stacking methods unpack the instance | case analysis; non-termination from the unbounded iteration of C60 |
| C99 | `BgpqCacheModel`, `HTCache`: trace caches of the jitted functions, environment per call, several queues | invariant: every kept trace was accepted under some environment; each mix of strategies merges like sorting; simulation by the sort-based queues and by the set |
| C100 | `HashModel.hashPair`, `classHasher`, `itemHasher`, `DedupeModel` | second state = first state xor a constant of the word count (induction); the constant never cancels: periodicity modulo 1024 and one pass over a period; inverse of the mix for twins; composition with C23 |
| C101 | `Bgpq.mergeBuffer`, `deleteMins` | sorted merge split at batch_size by counting finite keys; the heap invariant extended to histories with merge_buffer; refutation by counting keys up to k |
| C102 | `Agg.packed`, `unpacked` on lists of rows; spec `Inst.select`, `Inst.append`, `PackedRow.bit` | the words of a record depend on its row only; bit-level characterisation of join/split of words and tail |
| C103 | `SoA.concat`, `stack`, `expandDims` | instances are determined by their lines of records along an axis; the lines of a concatenation are the concatenated lines |
| C104 | `parallelInsert` of C07/C17 | counting: a mask without two marked lanes of one item marks as many lanes as items; `parallel_insert_union`, `dedupe_exact_partial` |
| C105 | `getitem`, `setWith` (the loops of `__getitem__`, `set`, `set_as_condition` with their constructors and `except` clauses) over `Desc.construct`/`check` and `NArr.index`/`atSet` | induction on the class; entries of the result come from the inputs |
| C106 | fields with dtypes, `whereInstD`, `whereRawD`, `whereNoBroadcastD`, `updateD` over the dtype-free functions of C46 | reduction to the dtype-free functions; case analysis of the finite promotion table, arithmetic of wrapping |
| C107 | `SetValue.set` (the value chosen per field, the `isinstance` test, swallowed exceptions, own updater of nested instances), update of one array a parameter | induction on the instance; `mapArr`, `mapOuter` as specification |
| C108 | `Inst` (fields with their own dtype), `eqInst` (promotion), `typedHasher` (bits of the given dtype), `insertC` (insert with the conversion of `.at[].set`); batches: `DtypeBatch` (`parallelInsertC`, `callC`) | view of the table by values: `insert_view`, `lookup_view`, then C16-C18 for the values; case analysis over dtypes; `hash_detects_single_word` |
| C109 | `GuardFor` (Guard of C23 weakened by finite keys), `Hashed` (hash_pair, C100) | an unfilled lane in a group has key +inf and so is never its representative if the keys are finite; then C100 (the two hashes differ) and C83, C95, C96, C104; the exception by kernel evaluation of the real hashes |
| C110 | `setLeafD`, `atSetD`, `TStack`, `TQueue` (fields with dtypes), `insertV`, `insertFields` (dtypes seen while tracing), `insertMixed` | integers and floats survive the way through the common dtype except integers in floats (`around_id`, by the table of dtypes and laws of floats); scatters commute with conversions (naturality); then simulation of the record containers of C88 and of the queue of C93 |
| C111 | `maskKeys` (user code) and the models of `unique_mask`, `make_batched`, `BGPQ.insert` and `where` composed | representatives of `unique_mask` are the least keys of each item (C42), conservation of the queue (C07), `where` with one instance for all other records |
| C112 | `Probe` (what the code takes from an item given), `insertP`, `lookupP`, `parallelInsertP`, `given`, `castFields`, `sameFields`, `leafOf` | words of a field depend on bits and width only, promotion is injective on the range of a field, so a fitting item agrees with the converted one; every function is a function of what agrees; induction over histories; counterexamples by evaluation |
| C113 | `clz`, `next`, `firstOccurrenceMask` | path from a node to the target is division of the 1-based index by powers of two; stable sort of positions and group starts as in C39 |

## 4. What is modelled, and what is not

Modelled: `stack/`, `queue/`, `bgpq/` (all files except the benchmark), `hashtable/` (all files), `io/io.py`, `core/dataclass.py`,
`core/field_descriptors.py`, `core/field_descriptor_utils.py`, `core/xtructure_decorators/{__init__,shape,default,indexing,ops,hash,validation,structure_util,string_format,annotate,bitpack_accessors,method_factory,io,aggregate_bitpack/*}.py`, `core/type_utils.py`, `core/xtructure_numpy/array_ops.py`,
`core/xtructure_numpy/dataclass_ops/*` except the functions listed below, and the dispatch of `core/xtructure_numpy/__init__.py` for the functions of a
list, `take`, `where`, `update_on_condition` and `block` (elsewhere it only passes its arguments on).

Not modelled: the random number generator itself, the text of a formatted record and the layout of tables, `protocol.py`, the benchmarks,
the `pad` modes that compute new entries (`mean`, `linear_ramp`, …), tuples inside the argument of `block`, floating-point arithmetic (only order and equality of keys and
entries are used), NaN keys elsewhere than in C81, C73, C84 and C87, dtype promotion elsewhere than in C93, C106, C108 and C110, JIT tracing and caching elsewhere than in C99, device memory, performance, fields with a zero-size intrinsic
shape in bit-packed classes, in C105 raw values and values of another class or dtype given to `set` (C107 has them, without validation), uint32 element counts ≥ 2^31 in the hash table.

Hypotheses that recur: `HashTable.ValidParams` (bucket_size 1..255, fewer than 2^31 slots, max_probes ≥ number of slots, as `build` gives by
default); BGPQ blocks of exactly `batch_size` pairs, total_size ≥ 1; aggregate packing of at most 2^32 bits per item.

## 5. Findings (places where the code does not do what a user would expect; each proved in Lean unless marked †, which is seen by reading only)

* Queue (C04): slots freed by `dequeue` are not reused until `clear`.
* BGPQ (C11): an overfull queue can drop better items than it keeps; `size` can exceed `max_size` by up to batch_size − 1 (attained); values paired
  with `inf` keys are stale (C66); items of key `-inf` are not counted and make the queue lose other items (C71).
* Merge kernels (C81): with a NaN key the GPU kernels emit the NaN before smaller keys (sorting keeps it at the end); the key–value GPU kernel has no case for an empty input†, which it gets in a queue with batch_size 1; with a field of size 0 it raises unless fields are padded (C82).
* Hash table: with a custom small `max_probes` an item is put into a bucket the lookup never probes (C27); the XLA round bound can leave items
  unplaced although there is room (C22); with 256 slots per bucket a full bucket reads as empty and its items are lost (C72); an item whose hash/words are all ones is lost by the in-batch
  dedupe when an unfilled lane comes first (C23); `-0.0 == 0.0` but their hashes differ, and NaN items are never found and never recognised as present (C73); an empty batch shape in `parallel_insert` raises†;
  an item with a NaN among its `unique_key`s is dropped from the batch and its lanes return the index of lane 0 (C84); integer `unique_key`s are compared as float32 (C84);
  with `XTRUCTURE_HASH_AGG_MODE=packed` values outside the range of their bits are hashed modulo 2^bits, so that de-duplication drops distinct items, and a batched instance is
  hashed without the tails of its elements after the first (C85); tables do not survive a change between raw and packed hashing, e.g. `auto` on CPU and TPU (C85).
* Hash table settings (C83): a `MAX_PROBE_BUCKETS` limit below the number of buckets loses items although there is room; mode `approx` loses items with equal hashes; without `Guard` even the
  sort backend changes which items are lost.
* Capacity (C64): with `hash_size_multiplier=1` a table can have fewer slots than the capacity asked for (11 → 8 slots).
* Order (C62, C63): once a table is full, or a queue overfull, what is kept depends on the insertion order; values of equal keys leave the queue in an order that depends on the
  insertion order.
* Hash (C30): with `XTRUCTURE_HASH_STREAM=on` an instance without words hashes differently from the other entry point.
* Bit packing: 1-bit fields store "is non-zero" in `to_uint8` but value mod 2 in aggregate packing (C35, C37); `unpack_field` does not handle negative indices or
  slice ends beyond the field (C40): it returns bits of the neighbouring fields, all ones before the record (index -1 of the first field is 2^bits - 1 whatever the field holds), `slice(None, None, -1)` selects nothing, and `slice(-n, None)`
  returns n + nvalues numbers; `from_unpacked` ignores unknown keyword arguments when all fields are given (C74).
* `unique_mask` (C42–C44): the 32-bit mixing used for more than four words collides (two top-bit flips cancel) and drops a distinct item; an unfilled
  entry ahead of an all-ones row drops it; for aggregate-packed classes the tail bytes are ignored, and classes of at most 16 bits raise.
* `unique_mask_legacy` (C70): with both `key` and `filled`, a filled entry whose key is `+inf` is marked (it is not by `unique_mask`); one NaN key unmarks its whole group (C87).
* `unique_mask` (C87): float `key_fn` values in more than 4 columns lose their fraction; integer `key`s raise; a `batch_len` other than the batch length regroups the values of
  `key_fn` instead of restricting the call; the public `xnp.unique_mask` does not take `size` and `fill_value`, which its implementation documents as required for JIT†.
* `update_on_condition` with a tuple index clips out-of-range indices instead of dropping them (C45).
* Dataclass operations (C46, C47, C52): negative axes, and axis-free `flip`/`roll`/`repeat`/`squeeze`, act on intrinsic axes; `transpose` with negative axes raises for
  fields with intrinsic axes; `at[].set` and `set_as_condition` with a misfitting value silently do nothing; `where` with a batch-shaped condition mixes entries of records
  or raises; `tile`, `broadcast_to`, `atleast_nd`, `vstack`, `hstack`, `dstack`, `column_stack` treat fields of different rank differently.
* `take` without an axis (its default), and `concat(axis=None)` (C76), flatten every field with its intrinsic axes: index `v` selects component `v mod m` of record `v div m`, and
  the fields of the result no longer belong together. `zeros_like`, `ones_like` and `broadcast_to` ignore `out_sharding` for instances†.
* `take_along_axis` (C89) with `mode` or `fill_value` – even with the default mode spelled out – raises for every class with a field that is not a scalar; with `axis=None` it raises for
  instances unless one of them is given.
* `block` (C69): a class with a vector field has its vectors joined instead of its records; blocks of different classes with the same number of fields are mixed by position.
* Shapes (C48): a nested class without fields makes an instance unstructured; a nested field with an intrinsic shape can make `shape` raise.
* IO (C90): `save` truncates the file before the new contents are complete, with no temporary file: a save that is interrupted while writing destroys the
  previous contents of the path (it never leaves a mixture, because the class name is the last member).
* IO (C91): `load` does not enforce declared dtypes: if the declaration of a field changed since the file was written, an array saved in plain form keeps its old dtype
  (a packed one is cast to the new one). A new nested field `a` with a field called `npy` reads the old array `a`.
* BGPQ (C92): `insert` accepts blocks of any length. A block shorter than `batch_size` shrinks the buffer array for good and silently loses items
  (even of later, well-formed blocks); a longer one grows the buffer beyond `max_size` and makes `size` undercount between deletes.
* BGPQ (C93): keys are never cast to `key_dtype` (default `float16`): `float32` keys make every insert into a default queue raise `TypeError`, integer keys are
  accepted and silently rounded; those of 65520 or more become `inf` and their items are lost.
* Stack/Queue (C94): `pop`/`dequeue` of more items than there are wraps the `uint32` counters: `size` reports
  `2^32 - m` and the next `m` items put in are silently swallowed (`stack_underflow_swallows`,
  `queue_underflow_swallows`); only `Queue.clear` repairs it at once.
* Spellings (C97): an intrinsic shape written as an integer (`FieldDescriptor(jnp.uint8, 3)`) is understood by `default` and by `random` for array
  fields, but `shape`, `len`, `ndim`, `structured_type`, validation, `random` for nested fields and `bitpack="auto"` (when every leaf has bits) raise
  `TypeError`.  Written as a list, `default` raises and instances are UNSTRUCTURED, although validation accepts them.  `FieldDescriptor[dt, 3]` sets the
  fill value.  With x64 off, `validate=True` together with a 64-bit dtype (`jnp.int64`, `int`, `float`) makes every construction raise, `default()`
  included, because the declared dtype is not canonicalised before the comparison (validation.py:25-34).
* Methods (C98): `x.vstack(y)`, `x.hstack(y)`, `x.dstack(y)` and `x.column_stack(y)` call the function with `tup = x`: `*tup` unpacks the instance, an
  iteration that never ends for a batch (`Methods.stacking_methods_false`).
* Settings (C99): an `insert` that raises because of `XTRUCTURE_BGPQ_MERGE_VALUE_BACKEND_BUFFER` has already traced `merge_sort_split`; a later call with other
  settings uses that trace (`Bgpq.changed_settings`).  Words that would be refused are accepted once a call of the same shapes has returned.
* Hash pairs (C100): the second hash of `hash_pair` is a function of the first one for instances of one class (the position constants xored into the lanes cancel to a constant of the
  word count), so the 64 bits used for de-duplication and double hashing carry 32 bits; collisions are easy to construct; mode `approx` loses items with a probability of a 32-bit hash.
* `BGPQ.merge_buffer` (C101) is public but breaks the order of the queue when called on its own with keys below the front batch: the batch that `delete_mins` returns next is never touched, so on an empty queue `delete_mins` returns padding while `size` is positive. Its docstring promises five arrays; the code returns (queue, keys, values, flag).
* Packed instances (C102): `XPacked.default()` has zeros in every field, not the packing of `X.default()`; packed records that were not made by packing (`XPacked.random`, computed words) can differ in unused bits only, so `==`, `hash` and `unique` on them are not those of the contents.
* `concat` (C103) of one single record returns the record (no batch axis), of two a batch, and of a batch and a single record raises: records cannot be appended one by one.
* `parallel_insert` (C104): docs/hashtable.md says `unique_mask` is true "if the item was new and not a duplicate" and sums it as "items that were not already present"; it is also set for items that were in the table before. The new items are `inserted_mask`.
* Validation (C105): `at[].set` and `set_as_condition` swallow the exception raised by the constructor of a nested validating class and go on with the other fields, so an update that is refused in one nested field still writes the rest: all classes validating, setting record 0 of `(5,1),(6,2)` to `(9,2)` where ids must differ gives `(9,1),(6,2)` (`set_all_or_nothing_false`). A validator over the whole array makes `x[i]` of a valid batch raise (`getitem_total_false`). `astype` and comparisons return, silently, instances that `check_invariants` refuses (`cast_invalid`). A validator that cannot run, as under jit where `bool` of a traced entry raises `TypeError`, makes `at[].set` silently leave every nested instance of its class as it was (`set_drops_unchecked`).
* `where` (C106): `where(c, x, 0)` with a Python scalar turns every integer and boolean field into `int32` (a float scalar: every field into `float32`), because the scalar is made an array and only its dtype is used (logical_ops.py:54-66); `jnp.where`, which the documentation names, keeps the dtype. A kept `uint32` entry ≥ 2^31 comes back negative (`where_scalar_false`), and the result does not pass `check_invariants`.
* Options†: on instances `zeros_like`, `ones_like` and `broadcast_to` ignore `out_sharding`, and `pad` ignores unknown keywords in its default mode and any mode for zero widths, where the array functions would use or refuse them (xtructure_numpy/__init__.py:286-301, 350-353; batch_ops.py:107-116).
* `at[].set` (C107): a value of a class that is neither the class of the instance (or a subclass) nor of a nested instance is dropped without an error; a value of a base class too (`set_foreign`). `Stack.push` and `Queue.enqueue` of such a value count its records and store nothing (`put_foreign`). A value of the class of nested instances replaces those (`set_nested`).
* Dtypes (C108): an item of a class that declares `uint8`, given with `int32` fields (what `jnp.array([1, 2])` makes), is compared by value but hashed
  by the bytes of its own dtype. Mixing the two in one table stores equal items twice (`mixed_dtypes_stored_twice`); an item with a number outside the
  declared dtype is never found again (`misfit_never_found`); a `uint32` 4294967295 equals an `int32` -1 (`unsigned_equals_negative`).
* Infinite keys (C109): with the default settings and real hashes, a filled lane with `unique_key` `+inf` can lose its item: the instance with all bits set, next to an
  unfilled lane, in a batch with a hash collision (`ClassTable.infinite_key_loses_item`, seed 42).  Without keys, or with finite ones, nothing is lost for classes of at most 8 words.
* Containers (C110): pushing (enqueueing, `at[...].set`) floats into an integer field converts the whole stored field to float and back: integers stored earlier that the float type cannot hold change (16777217 becomes 16777216; `push_float_damages`). Nothing checks dtypes unless the class asks for validation. `BGPQ.insert` raises `TypeError` in that case, and also where a stack would convert harmlessly (`int32` values for a `uint8` field).
* Documented filter (C111): `xnp.where(unique_mask, data, Class.default())` of docs/xnp.md:451-456 is right for classes of scalar fields only; with a vector field it raises, or mixes records when the vectors are as long as the batch.
* Hash table items with other dtypes than the class (C112): nothing converts them before they are hashed. A negative int8 given to an int32 field is not found as int32 and is stored twice; an out-of-range integer is never found and takes a new slot at every insert; a float given to an integer field can change another stored item (`insert.py:92-94` writes through the common dtype).
* IO (C49): a path without `.npz` is written to another file than asked for; values ≥ 2^bits are truncated; fields named like the metadata (or `file`, `allow_pickle`) are lost or
  raise; bfloat16 fields cannot be loaded.
* Equality (C50): shapes are broadcast, so one record equals a batch of copies, and an empty batch equals a batch of one; a class without fields raises.
* Pytrees (C51): attributes that are not declared fields are lost; `from_tuple` raises for classes with two or more fields.
* Validation (C54): the batch shapes of the fields are not compared, nested instances are not looked into, results of `tree_map` (hence of the `xnp` functions) are not
  validated.
* Iteration (C60): the classes define `__getitem__` and `__len__` but not `__iter__`; since JAX clamps indices, `for r in x` and `list(x)` on a batch never end (this includes
  `xnp.stack(x)`, `x.vstack()`, …, which unpack their argument); a single record yields nothing.
* Metadata (C59): `shape`, `dtype`, `structured_type` and `len` are cached on first read and never invalidated, so they are wrong after a field (of the instance or of a nested one) is
  reassigned; copies carry the stale values.
* Names (C77): fields called `batch` or starting with an underscore cannot be declared; a field called like a property (`shape`, `dtype`, `at`, `bytes`, `ndim`, …, `packed`,
  `<field>_unpacked`) gives a class that cannot be constructed; a field called like a method (`hash`, `save`, `pad`, …) hides it; the accessor of a packed field `set` is lost;
  members of the class body under the decorator's names (`default`, `random`, `str`, …) are overwritten silently.
* Subclasses (C78): the field descriptors of the base are used, so a subclass that adds a field has no `default()`, and `shape`, `random`, packing ignore the new field.
* Descriptors (C55): `clone_field_descriptor(d, dtype=…)` keeps the fill value of the old dtype (4294967295 in a `uint8` field).
* Bit-packing policy (C56): with the default `bitpack="auto"`, declaring a class whose only fields are scalar nested instances of empty classes recurses for ever.
* `random` (C57) ignores `bits`: random instances do not survive packing. Without a key it always returns the same instance†.
* `as_original` (C58): negative values of a signed field with fewer bits than its dtype come back positive.
* `can_cast` (C80) raises for numpy scalar types (`np.float32`), and never compares instances of two classes field by field.

## 6. Testing the theorems

`seeded/LOG.jsonl` records realistic bugs planted in the model (outside /verif), the theorems that failed, and the theorems tightened when one survived.
