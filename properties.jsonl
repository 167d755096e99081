{"id": "C01", "title": "Stack is LIFO over every history", "statement": "Starting from Stack.build(max_size, cls), after any sequence of push (single or batch) / pop(k) / peek(k) in which the number of live items never exceeds max_size and no pop/peek asks for more items than are live, every pop/peek returns exactly the top k items of an ordinary list-stack, in push order, stack.size equals that list's length and stack[i] is its i-th item from the bottom.", "quantifier": "every max_size < 2^31, every item type, every operation sequence of any length that respects the bounds", "why_tests_cant": "The number of histories is unbounded; a test fixes one sequence.", "anchors": ["xtructure/stack/stack.py: Stack.push/pop/peek/__getitem__"]}
{"id": "C02", "title": "Stack overflow never corrupts what is below capacity", "statement": "Pushing past max_size is silent: for every push/pop history that never underflows, size keeps counting all pushed-minus-popped items, and every live item whose position is below max_size is stored intact, so once the stack has been popped back under max_size it behaves as if the overflow had only lost the items above max_size.", "quantifier": "every history without underflow, with any number of overflowing pushes, as long as size stays below 2^31", "why_tests_cant": "Requires reasoning over all histories that overflow and then recover.", "anchors": ["xtructure/stack/stack.py: _stack_push_jit, _stack_pop_jit"]}
{"id": "C03", "title": "Queue is FIFO over every history", "statement": "Starting from Queue.build, after any sequence of enqueue / dequeue(k) / peek(k) / clear in which at most max_size items have been enqueued since the last clear and no dequeue/peek asks for more than is live, every dequeue/peek returns exactly the k oldest live items in enqueue order, queue.size is the number of live items and queue[i] is the i-th oldest.", "quantifier": "every max_size < 2^31, every item type, every admissible operation sequence", "why_tests_cant": "Unbounded histories.", "anchors": ["xtructure/queue/queue.py: Queue.enqueue/dequeue/peek/clear/__getitem__"]}
{"id": "C04", "title": "Queue accepts items whenever it is not full", "statement": "If a queue currently holds size items and size + n <= max_size, then enqueueing n items and later dequeueing them returns those n items (max_size is 'the maximum number of elements the queue can hold').", "quantifier": "every reachable queue state and batch", "why_tests_cant": "Needs a long history of enqueues and dequeues whose total exceeds max_size.", "anchors": ["xtructure/queue/queue.py: _queue_enqueue_jit", "docs/queue.md"]}
{"id": "C05", "title": "Queue.clear makes the queue as good as new", "statement": "After clear(), any further admissible history gives exactly the same outputs as on a freshly built queue: no item enqueued before the clear is ever returned.", "quantifier": "every state before the clear, every admissible history after it", "why_tests_cant": "Quantifies over two unbounded histories.", "anchors": ["xtructure/queue/queue.py: Queue.clear"]}
{"id": "C06", "title": "BGPQ.delete_mins returns the batch_size smallest items", "statement": "For every heap reached from BGPQ.build by any sequence of insert and delete_mins, delete_mins returns batch_size keys in non-decreasing order such that every returned finite key is <= every key still in the heap, and fewer than batch_size finite keys are returned only when the heap is empty afterwards.", "quantifier": "every total_size, batch_size >= 1, key/value contents and operation sequence (including histories that overflow)", "why_tests_cant": "Heap order must survive every interleaving of inserts and deletes; tests sample a few.", "anchors": ["xtructure/bgpq/bgpq.py: BGPQ.insert/delete_mins", "xtructure/bgpq/_delete.py", "xtructure/bgpq/_insert.py"]}
{"id": "C07", "title": "BGPQ neither loses nor duplicates items while there is room", "statement": "While the heap has a free block, insert makes the multiset of (key, value) pairs grow by exactly the finite-key pairs of the batch; delete_mins always removes exactly the finite-key pairs it returns. Each key always comes back with the value it was inserted with.", "quantifier": "every reachable heap, every batch", "why_tests_cant": "Conservation over every history and size cannot be sampled.", "anchors": ["xtructure/bgpq/_insert.py", "xtructure/bgpq/_delete.py", "xtructure/bgpq/_merge.py"]}
{"id": "C08", "title": "BGPQ.size is the number of stored items", "statement": "For every reachable heap, heap.size equals the number of finite-key pairs stored in it (root, blocks and buffer together).", "quantifier": "every history of insert/delete_mins", "why_tests_cant": "size is derived from heap_size and buffer_size counters that are updated separately from the stores.", "anchors": ["xtructure/bgpq/bgpq.py: BGPQ.size"]}
{"id": "C09", "title": "Draining a BGPQ yields a globally sorted sequence", "statement": "From any reachable heap, repeatedly calling delete_mins until size is 0 terminates and the concatenated finite keys are non-decreasing and are, with their values, exactly the stored multiset.", "quantifier": "every reachable heap", "why_tests_cant": "Unbounded number of drains and contents.", "anchors": ["xtructure/bgpq/bgpq.py: BGPQ.delete_mins"]}
{"id": "C10", "title": "A BGPQ that overflows keeps the best batch and drops only one batch", "statement": "insert on a full heap never stores anything that was not inserted, drops at most batch_size items, and never drops an item strictly smaller than one of the batch_size smallest items held after the insert.", "quantifier": "every reachable full heap, every batch", "why_tests_cant": "Needs all full-heap configurations.", "anchors": ["xtructure/bgpq/_insert.py: heapify on a full heap"]}
{"id": "C11", "title": "A BGPQ that overflows drops the worst items", "statement": "insert on a full heap drops only items that are not smaller than any item it keeps, so a bounded priority queue always holds the best items it has been offered, and heap.size never exceeds heap.max_size.", "quantifier": "every reachable full heap, every batch", "why_tests_cant": "Needs all full-heap configurations.", "anchors": ["xtructure/bgpq/_insert.py", "docs/bgpq.md"]}
{"id": "C12", "title": "BGPQ.make_batched only pads", "statement": "make_batched(keys, values, batch_size) with at most batch_size keys returns exactly batch_size pairs: the given pairs first, in order, then padding with key inf, so that inserting the result adds exactly the given finite pairs.", "quantifier": "every chunk length <= batch_size", "why_tests_cant": "All lengths and contents.", "anchors": ["xtructure/bgpq/bgpq.py: BGPQ.make_batched"]}
{"id": "C13", "title": "All merge backends compute the same stable merge", "statement": "For sorted inputs a and b, the sort-based, the loop-based and the block-parallel merge return the same keys (the sorted merge) and the same source indices (stable: a before b on ties), for every length of a and b (including 0) and every block size.", "quantifier": "every pair of sorted arrays, every block size >= 1", "why_tests_cant": "Block boundary positions and duplicate patterns are unbounded.", "anchors": ["xtructure/bgpq/merge_split/split.py", "xtructure/bgpq/merge_split/loop.py", "xtructure/bgpq/merge_split/parallel.py"]}
{"id": "C14", "title": "Merge-path partition finds the unique stable split point", "statement": "binary_search_partition(k, a, n, b, m) terminates and returns (i, k-i) where i is the number of elements of a among the first k elements of the stable merge of a and b.", "quantifier": "every sorted a, b and every 0 <= k <= n+m", "why_tests_cant": "All diagonals of all arrays.", "anchors": ["xtructure/bgpq/merge_split/common.py: binary_search_partition"]}
{"id": "C15", "title": "Merging two blocks splits them at the right point, keeping values attached", "statement": "merge_sort_split of two sorted blocks of n keys returns two sorted blocks of n such that every key of the first is <= every key of the second and the two blocks together are a permutation of the inputs as (key, value) pairs.", "quantifier": "every pair of blocks", "why_tests_cant": "All contents.", "anchors": ["xtructure/bgpq/_merge.py: merge_sort_split"]}
{"id": "C16", "title": "What was inserted is found", "statement": "For every table reached from HashTable.build (default max_probes) by any sequence of insert / parallel_insert, an item reported inserted or already present by any operation so far is found by lookup, and table[idx] equals the item.", "quantifier": "every item type, hash function, capacity, bucket size < 256, history and batch", "why_tests_cant": "Depends on hash collisions, bucket overflows and probe order over unbounded histories.", "anchors": ["xtructure/hashtable/insert.py", "xtructure/hashtable/lookup.py", "xtructure/hashtable/table.py"]}
{"id": "C17", "title": "Lookup is exact", "statement": "On every reachable table, lookup(x) reports found iff some occupied slot holds an item equal to x, and then the returned index is that slot; fingerprint or hash collisions never cause a false positive or a false negative.", "quantifier": "every reachable table and item", "why_tests_cant": "Fingerprint/hash collisions cannot be enumerated.", "anchors": ["xtructure/hashtable/lookup.py: _hashtable_lookup_internal"]}
{"id": "C18", "title": "The table stores each value once and size counts them", "statement": "On every reachable table no two occupied slots hold equal items, and table.size equals the number of occupied slots, which equals the number of True values in all inserted flags so far.", "quantifier": "every history, including batches with duplicates and already present items", "why_tests_cant": "Unbounded histories and duplicate patterns.", "anchors": ["xtructure/hashtable/insert.py", "xtructure/hashtable/table.py"]}
{"id": "C19", "title": "Indices are stable", "statement": "insert and parallel_insert never move, overwrite or remove an item already stored: an index returned for an item stays valid, with the same value, after any further history.", "quantifier": "every reachable table, every further history", "why_tests_cant": "Two-history quantifier.", "anchors": ["xtructure/hashtable/insert.py"]}
{"id": "C20", "title": "Single insert is idempotent and reports correctly", "statement": "insert(table, x) returns was_inserted = False and an unchanged table when x is already stored (with its index), and was_inserted = True with the index now holding x when x was absent and the table has a free slot.", "quantifier": "every reachable table and item", "why_tests_cant": "All states.", "anchors": ["xtructure/hashtable/insert.py: _hashtable_insert_jit"]}
{"id": "C21", "title": "parallel_insert is set union", "statement": "After parallel_insert(table, items, filled) the set of stored items is the old set plus the items of the lanes reported inserted; inserted is True for exactly one lane per newly stored value, only for filled lanes; and every filled lane whose item ends up stored gets an index whose slot holds that item (duplicates get the index of their representative).", "quantifier": "every reachable table, batch, filled mask and duplicate pattern", "why_tests_cant": "Batch conflict resolution interacts with every bucket fill pattern.", "anchors": ["xtructure/hashtable/insert.py: parallel_insert, _resolve_slot_conflicts"]}
{"id": "C22", "title": "parallel_insert places every new item when there is room", "statement": "If the table has enough free slots for the distinct new items of a batch, parallel_insert stores all of them.", "quantifier": "every reachable table and batch", "why_tests_cant": "Round-based conflict resolution must terminate successfully for every conflict pattern.", "anchors": ["xtructure/hashtable/insert.py: pending loop"]}
{"id": "C23", "title": "In-batch deduplication is exact and prefers the best key", "statement": "Among the filled lanes of a batch, the unique mask is True for exactly one lane per distinct item; with unique_key it is the lane with the smallest key, lowest lane index on ties (without unique_key the lowest lane); every filled lane's representative is the chosen lane of its item; unfilled lanes are never chosen. This holds whatever the hash collisions.", "quantifier": "every batch, filled mask, unique_key and hash function", "why_tests_cant": "Hash collisions and sentinel values are adversarial inputs no test covers.", "anchors": ["xtructure/hashtable/hash_utils.py: _compute_unique_mask_from_hash_pairs, _compute_unique_mask_from_uint32eds"]}
{"id": "C24", "title": "The probe sequence visits every bucket", "statement": "With _capacity a power of two and the odd step derived from the hash, the first _capacity buckets on an item's probe path are pairwise distinct, i.e. they are all the buckets.", "quantifier": "every capacity 2^k, start bucket and step", "why_tests_cant": "Number-theoretic statement for every size.", "anchors": ["xtructure/hashtable/hash_utils.py", "xtructure/hashtable/table.py: build"]}
{"id": "C25", "title": "A table with a free slot accepts a new item", "statement": "With default max_probes, single insert of an absent item fails only when every slot of the table is occupied.", "quantifier": "every reachable table and item", "why_tests_cant": "All fill patterns.", "anchors": ["xtructure/hashtable/insert.py", "xtructure/hashtable/lookup.py"]}
{"id": "C26", "title": "Parallel lookup agrees with single lookup", "statement": "lookup_parallel returns, for each filled lane, the same found flag (and, when found, the same index) as lookup on that lane's item, and found = False for unfilled lanes.", "quantifier": "every table, every batch and filled mask", "why_tests_cant": "Lane masking in the shared loop.", "anchors": ["xtructure/hashtable/lookup.py"]}
{"id": "C27", "title": "Custom max_probes keeps inserted items findable", "statement": "For every max_probes a user passes to HashTable.build, an item reported as inserted is found by a subsequent lookup.", "quantifier": "every max_probes", "why_tests_cant": "Needs a table filled so that probing stops at the limit.", "anchors": ["xtructure/hashtable/lookup.py", "xtructure/hashtable/insert.py", "xtructure/hashtable/table.py"]}
{"id": "C28", "title": "GPU (Triton) slot reservation is safe under every schedule", "statement": "Whatever the interleaving of the per-lane atomic operations, no two lanes are given the same slot, no lane is given a slot that was occupied before, the occupied slots of every bucket stay a prefix, and every bucket a lane skipped on its probe path is full - so that every reserved item is findable.", "quantifier": "every number of lanes, probe paths, initial fill and every interleaving of atomic steps", "why_tests_cant": "Schedules are unbounded and not controllable from tests.", "anchors": ["xtructure/hashtable/insert_triton.py"]}
{"id": "C29", "title": "TPU (Pallas) slot reservation is safe", "statement": "The round-based reservation assigns distinct free slots, keeps occupied slots a prefix of each bucket, updates fill levels accordingly and skips only full buckets.", "quantifier": "every batch and fill pattern", "why_tests_cant": "All sort/group patterns.", "anchors": ["xtructure/hashtable/insert_pallas.py"]}
{"id": "C30", "title": "The two hashing entry points agree", "statement": "hash(x) equals the first component of hash_pair(x) and hashing leaf by leaf (streaming) equals hashing the concatenated words, so items inserted through one path are looked up under the same hash.", "quantifier": "every list of leaves and seed", "why_tests_cant": "All lengths and contents.", "anchors": ["xtructure/core/xtructure_decorators/hash.py"]}
{"id": "C31", "title": "The avalanche finaliser loses no information", "statement": "The 32-bit avalanche mix used by all hashes is a bijection on uint32.", "quantifier": "all 2^32 inputs", "why_tests_cant": "Too many inputs and needs an inverse.", "anchors": ["xtructure/core/xtructure_decorators/hash.py: _avalanche32"]}
{"id": "C32", "title": "The word view of an instance is injective", "statement": "Two instances of the same class whose uint32ed words are equal have the same bytes in every field, so equality of words is equality of items.", "quantifier": "every class layout and contents", "why_tests_cant": "All layouts and contents.", "anchors": ["xtructure/core/xtructure_decorators/hash.py: byterize / uint32ed"]}
{"id": "C33", "title": "Bit packing round-trips for every width", "statement": "from_uint8(to_uint8(values, bits)) = values for every bits in 1..32 and every array of values < 2^bits.", "quantifier": "every width 1..32, length and contents", "why_tests_cant": "All widths x lengths x contents.", "anchors": ["xtructure/core/xtructure_decorators/aggregate_bitpack/bitpack.py: to_uint8, from_uint8"]}
{"id": "C34", "title": "Packed length is exact", "statement": "to_uint8 of n values of `bits` bits yields exactly packed_num_bytes(n, bits) bytes: the least whole number of lcm(bits, 8)-bit blocks that holds n*bits bits, which is ceil(n*bits/8) when bits divides 8 or is a multiple of 8.", "quantifier": "every n and bits", "why_tests_cant": "All n and bits.", "anchors": ["xtructure/core/xtructure_decorators/aggregate_bitpack/bitpack.py: packed_num_bytes, to_uint8"]}
{"id": "C35", "title": "Out-of-range values do not disturb their neighbours", "statement": "Packing a value outside 0..2^bits-1 stores it modulo 2^bits (for bits = 1: stores whether it is non-zero) and every other value of the array still round-trips.", "quantifier": "every array and width", "why_tests_cant": "All contents.", "anchors": ["xtructure/core/xtructure_decorators/aggregate_bitpack/bitpack.py: to_uint8"]}
{"id": "C36", "title": "packed_tensor fields behave like ordinary fields", "statement": "set_unpacked(f=v) followed by f_unpacked returns v (for in-range v) for any batch shape, and leaves the other fields unchanged.", "quantifier": "every batch shape, intrinsic shape and width", "why_tests_cant": "All shapes.", "anchors": ["xtructure/core/xtructure_decorators/bitpack_accessors.py"]}
{"id": "C37", "title": "Aggregate packing round-trips for every layout", "statement": "For every list of fields with widths 1..32 and any number of values, packing all fields into words + tail and unpacking returns every field value (mod 2^bits), whatever the alignment of fields to 32-bit words.", "quantifier": "every layout and contents", "why_tests_cant": "Layouts are unbounded.", "anchors": ["xtructure/core/xtructure_decorators/aggregate_bitpack/__init__.py", "xtructure/core/xtructure_decorators/aggregate_bitpack/kernels.py", "xtructure/core/xtructure_decorators/aggregate_bitpack/spec.py"]}
{"id": "C38", "title": "Aggregate packing stores exactly the needed bits", "statement": "words and tail have the documented sizes: words*32 + tail*8 >= total bits with tail <= 2 bytes and less than one byte/word of slack as computed by the layout, and the layout offsets never overlap.", "quantifier": "every layout", "why_tests_cant": "All layouts.", "anchors": ["xtructure/core/xtructure_decorators/aggregate_bitpack/spec.py"]}
{"id": "C39", "title": "Packed equality is logical equality", "statement": "Two in-range instances of the same layout have equal words and tail iff all their fields are equal.", "quantifier": "every layout, pair of contents", "why_tests_cant": "All pairs.", "anchors": ["xtructure/core/xtructure_decorators/aggregate_bitpack/__init__.py", "xtructure/core/xtructure_decorators/aggregate_bitpack/kernels.py"]}
{"id": "C40", "title": "unpack_field equals unpacking everything", "statement": "packed.unpack_field(name, indices) equals packed.unpacked.<name> indexed by the same indices (ints, lists, slices).", "quantifier": "every layout and index selection", "why_tests_cant": "All index selections.", "anchors": ["xtructure/core/xtructure_decorators/aggregate_bitpack/__init__.py: unpack_field"]}
{"id": "C41", "title": "XLA and Pallas packing kernels agree", "statement": "The word-tiled Pallas packing kernel and the XLA kernel produce identical words for every layout and tile size.", "quantifier": "every layout, tile size", "why_tests_cant": "All tilings.", "anchors": ["xtructure/core/xtructure_decorators/aggregate_bitpack/kernels.py"]}
{"id": "C42", "title": "unique_mask marks exactly one valid representative per distinct item", "statement": "xnp.unique_mask(val, key, filled) is True for exactly one entry of each group of equal items that has a valid (filled, finite-key) member; that entry is valid, has the group's smallest key, and is the earliest such; groups without valid members get no mark.", "quantifier": "every batch, key, filled mask", "why_tests_cant": "Sentinel collisions are adversarial.", "anchors": ["xtructure/core/xtructure_numpy/dataclass_ops/unique_ops/optimized_unique_ops.py: unique_mask"]}
{"id": "C43", "title": "unique_mask inverse reconstructs the batch", "statement": "With return_index and return_inverse, val[index][inverse] equals val for every valid entry.", "quantifier": "every batch", "why_tests_cant": "All duplicate patterns.", "anchors": ["xtructure/core/xtructure_numpy/dataclass_ops/unique_ops/optimized_unique_ops.py: unique_mask"]}
{"id": "C44", "title": "unique_mask distinguishes distinct items of packed classes", "statement": "For aggregate-bitpacked classes the default key separates any two distinct items.", "quantifier": "every packed layout", "why_tests_cant": "Needs items that differ only in the tail.", "anchors": ["xtructure/core/xtructure_numpy/dataclass_ops/unique_ops/optimized_unique_ops.py: default key_fn"]}
{"id": "C45", "title": "update_on_condition: first True wins", "statement": "xnp.update_on_condition(x, idx, cond, v)[j] is v[k] for the smallest k with cond[k] and idx[k] = j, and x[j] if there is none; out-of-range indices have no effect.", "quantifier": "every array, index list with duplicates, mask", "why_tests_cant": "Duplicate patterns unbounded.", "anchors": ["xtructure/core/xtructure_numpy/array_ops.py"]}
{"id": "C46", "title": "Field-wise storage behaves like an array of records", "statement": "For batched instances: x[i], x.at[i].set(v), concatenate, take, pad, stack, split, where act on every field with the same batch index, so that element j of the result is the record that the same operation on a list of records gives.", "quantifier": "every class, batch length, index", "why_tests_cant": "All classes and lengths.", "anchors": ["xtructure/core/xtructure_decorators/indexing.py", "xtructure/core/xtructure_numpy/dataclass_ops/batch_ops.py", "xtructure/core/xtructure_numpy/dataclass_ops/logical_ops.py"]}
{"id": "C47", "title": "reshape/flatten/transpose touch only batch axes", "statement": "reshape, flatten, transpose and swapaxes permute the batch elements exactly as numpy does on an array of records and keep each element's intrinsic contents; flatten after reshape is flatten; -1 is inferred so that the number of elements is kept.", "quantifier": "every shape", "why_tests_cant": "All shapes.", "anchors": ["xtructure/core/xtructure_numpy/dataclass_ops/shape_ops.py", "xtructure/core/xtructure_decorators/structure_util.py"]}
{"id": "C48", "title": "Batch shape is recovered from field shapes", "statement": "For any instance whose fields all have shape batch ++ intrinsic, shape.batch is batch; default(shape) gives such an instance; if the fields disagree the instance is reported unstructured.", "quantifier": "every class (with nesting) and batch shape", "why_tests_cant": "All shapes.", "anchors": ["xtructure/core/xtructure_decorators/shape.py", "xtructure/core/xtructure_decorators/default.py"]}
{"id": "C49", "title": "save then load gives back the instance", "statement": "load(save(x)) equals x for every (nested) instance, with packed=True for every field whose values are below 2^bits.", "quantifier": "every class and contents", "why_tests_cant": "All layouts; key naming collisions.", "anchors": ["xtructure/io/io.py"]}
{"id": "C50", "title": "Equality is extensional", "statement": "x == y is True iff every field of x equals the same field of y element by element; it is False as soon as one element of one field differs.", "quantifier": "all pairs of instances of one class", "why_tests_cant": "All pairs.", "anchors": ["xtructure/core/xtructure_decorators/ops.py"]}
{"id": "C51", "title": "Containers survive JAX transformations", "statement": "Flattening an instance into leaves and static metadata and unflattening gives an instance with the same declared fields, with static fields (max_size, batch_size, ...) in the metadata and never among the leaves; tree_map changes exactly the non-static fields; flattening does not depend on attribute order or on cached shapes.", "quantifier": "every dataclass layout", "why_tests_cant": "All layouts.", "anchors": ["xtructure/core/dataclass.py"]}
{"id": "C52", "title": "Axis operations move whole records", "statement": "flip, roll, rot90, repeat, expand_dims, squeeze, moveaxis, take_along_axis, tile, broadcast_to, broadcast_arrays, vstack, hstack, dstack and column_stack of batched instances give, at every position of the result, the record numpy would put there for an array of records: all fields of one record move together and keep their contents.", "quantifier": "every class (with nesting), batch shape, contents, axes and repetition counts", "why_tests_cant": "All shapes, axes and contents.", "anchors": ["xtructure/core/xtructure_numpy/dataclass_ops/spatial_ops.py", "xtructure/core/xtructure_numpy/dataclass_ops/shape_ops.py", "xtructure/core/xtructure_numpy/dataclass_ops/batch_ops.py"]}
{"id": "C53", "title": "Comparisons, fills and casts act entrywise on every field", "statement": "equal, not_equal and isclose give an instance of booleans comparing corresponding entries (after broadcasting the batch shapes); allclose is True iff all of them are close; full_like/zeros_like/ones_like fill every entry of every field and keep the shapes; astype converts every entry and keeps the shapes.", "quantifier": "every class, pair of batch shapes that broadcast, and contents", "why_tests_cant": "All shapes and contents.", "anchors": ["xtructure/core/xtructure_numpy/dataclass_ops/comparison_ops.py", "xtructure/core/xtructure_numpy/dataclass_ops/fill_ops.py", "xtructure/core/xtructure_numpy/dataclass_ops/type_ops.py"]}
{"id": "C54", "title": "validate=True guarantees dtypes and shapes", "statement": "The constructor of a class declared with validate=True returns exactly when every array field has the declared dtype, a shape ending with the declared intrinsic shape and passes its validator, and every nested field is an instance of its class, and raises otherwise; if the nested classes validate too, this holds at every depth; default(shape) always passes.", "quantifier": "every class (any nesting), every field value, every batch shape", "why_tests_cant": "All classes and values.", "anchors": ["xtructure/core/xtructure_decorators/validation.py", "xtructure/core/xtructure_decorators/default.py"]}
{"id": "C55", "title": "Field descriptors are consistent, and derived ones change only what is asked", "statement": "A FieldDescriptor has a fill value or a factory, never both, and bit counts in 1..32 (anything else raises); without a fill value it gets one of its dtype; clone_field_descriptor, with_intrinsic_shape and broadcast_intrinsic_shape change the overridden attributes only; a class with descriptors broadcast by a batch has the defaults of the original class with that batch; packed_tensor reserves exactly the bytes that packing produces.", "quantifier": "every descriptor, override, class and batch shape", "why_tests_cant": "All descriptors and combinations of overrides.", "anchors": ["xtructure/core/field_descriptors.py", "xtructure/core/field_descriptor_utils.py"]}
{"id": "C56", "title": "The bit-packing mode decides what a class offers", "statement": "bitpack='auto' never makes a declaration fail and adds .packed exactly when the class has fields, every primitive field at any depth declares bits and every nested field is scalar; 'aggregate' (or aggregate_bitpack=True) adds .packed when the class qualifies and raises at the declaration otherwise; 'field' and 'off' never add it; conflicting options raise.", "quantifier": "every class (any nesting) and every combination of the options", "why_tests_cant": "All classes.", "anchors": ["xtructure/core/xtructure_decorators/__init__.py", "xtructure/core/xtructure_decorators/aggregate_bitpack/spec.py", "xtructure/core/xtructure_decorators/aggregate_bitpack/view.py"]}
{"id": "C57", "title": "random gives valid instances", "statement": "random(shape, key) returns an instance with that batch shape, the declared dtypes and entries that are valid for their fields (of the dtype, and below 2^bits where bits is declared); it passes validation, and no two fields are drawn with the same key.", "quantifier": "every class (any nesting), shape and key, and every random number generator", "why_tests_cant": "All classes, keys and generator outputs.", "anchors": ["xtructure/core/xtructure_decorators/structure_util.py"]}
{"id": "C58", "title": "as_original gives back the original instance", "statement": "x.packed.as_original() (unpack with declared dtypes) equals x, for every batch and packing backend, if and only if every value survives its bit width: it lies in 0..2^bits-1, or its signed dtype has at most `bits` bits.", "quantifier": "every class of integer and boolean fields, batch and contents", "why_tests_cant": "All values and layouts.", "anchors": ["xtructure/core/xtructure_decorators/aggregate_bitpack/__init__.py"]}
{"id": "C59", "title": "shape, dtype and structured_type describe the current fields", "statement": "x.shape, x.dtype, x.structured_type and len(x) are those of the field values x has at the time of the read, at every depth, whatever metadata were read before and in whatever order, also after copying, replacing, mapping and nesting instances; reading metadata changes no field.", "quantifier": "every history of constructing, nesting, assigning, copying and reading instances of any classes", "why_tests_cant": "All histories of mutable, shared objects.", "anchors": ["xtructure/core/xtructure_decorators/shape.py", "xtructure/core/dataclass.py"]}
{"id": "C60", "title": "Iterating over a batch visits its records", "statement": "for r in x (and list(x), unpacking, and the xnp functions that take a sequence) visits x[0], ..., x[len(x)-1], in order, each once, and then ends.", "quantifier": "every class, batch shape and contents", "why_tests_cant": "All lengths; ending is a property of the whole iteration.", "anchors": ["xtructure/core/xtructure_decorators/indexing.py", "xtructure/core/xtructure_decorators/shape.py", "xtructure/core/xtructure_numpy/__init__.py"]}
{"id": "C61", "title": "Operations undo each other", "statement": "On batched instances: reading a record just set gives it, setting a record to itself changes nothing, updates of different records commute; stacking the records of a batch gives the batch, indexing a stack gives its parts, splitting a concatenation at its joints gives its parts; reshape, flatten, transpose, swapaxes, moveaxis, roll, flip and rot90 are undone by their inverses; expand_dims is undone by squeeze and pad by slicing; reading through two index arrays or a slice and an index composes; where(c, x, x) is x.", "quantifier": "every class (with nesting), batch shape, contents, axes and indices", "why_tests_cant": "All shapes, axes and contents.", "anchors": ["xtructure/core/xtructure_decorators/indexing.py", "xtructure/core/xtructure_numpy/dataclass_ops/batch_ops.py", "xtructure/core/xtructure_numpy/dataclass_ops/shape_ops.py", "xtructure/core/xtructure_numpy/dataclass_ops/spatial_ops.py"]}
{"id": "C62", "title": "The order of insertions does not change the contents of the hash table", "statement": "As long as every offered item fits, the set of keys a hash table holds is exactly the set of keys offered to it by any mix of insert and parallel_insert; so two histories that offer the same keys, in any order and any grouping into batches, give tables with the same size and the same lookup answers. A full table can depend on the order.", "quantifier": "every pair of histories of inserts and parallel inserts (any batches, masks and backends)", "why_tests_cant": "All histories and their reorderings.", "anchors": ["xtructure/hashtable/insert.py", "xtructure/hashtable/table.py", "xtructure/hashtable/lookup.py"]}
{"id": "C63", "title": "The keys BGPQ returns do not depend on how they were inserted", "statement": "Two queues holding the same multiset of keys return the same keys, in the same order, from every sequence of delete_mins, however their items were inserted (order, batches) and however their heaps are arranged; values of equal keys can come in another order. An overfull queue can depend on the order.", "quantifier": "every pair of histories of insert and delete_mins", "why_tests_cant": "All histories and their reorderings.", "anchors": ["xtructure/bgpq/bgpq.py"]}
{"id": "C64", "title": "Containers hold as many items as they were built for", "statement": "HashTable.build(capacity) makes at least `capacity` slots, and a table that was offered at most `capacity` distinct keys stores all of them; BGPQ.build(total_size) keeps all items as long as no more than total_size were inserted in full batches.", "quantifier": "every capacity, bucket size, multiplier, batch size and history", "why_tests_cant": "All parameters and fill levels.", "anchors": ["xtructure/hashtable/table.py", "xtructure/bgpq/bgpq.py"]}
{"id": "C65", "title": "str shows records of the batch where they are", "statement": "str(x) of a single instance formats that instance; of a two-axis batch it shows a grid with record (r, c) in row r and column c, of any other batch one line with the records in C order; of more than four rows, columns or records exactly the first two and the last two are shown with ... in between, otherwise all of them.", "quantifier": "every class, batch shape and contents", "why_tests_cant": "All batch shapes.", "anchors": ["xtructure/core/xtructure_decorators/string_format.py", "xtructure/core/xtructure_decorators/annotate.py"]}
{"id": "C66", "title": "What delete_mins pads with", "statement": "delete_mins returns exactly batch_size entries whose keys are finite at the first min(size, batch_size) positions and infinite after; every value returned anywhere, padding included, is the default value or one that was inserted before; and the values of the padding are the default value.", "quantifier": "every history of insert and delete_mins", "why_tests_cant": "All histories; stale values depend on the whole history.", "anchors": ["xtructure/bgpq/_delete.py", "xtructure/bgpq/bgpq.py", "docs/bgpq.md"]}
{"id": "C67", "title": "Classes of scalar fields behave exactly like numpy arrays of records", "statement": "For a class whose fields, at every depth of nesting, are scalars, each of getitem, flip, roll, rot90, repeat, squeeze, expand_dims, moveaxis, transpose, swapaxes, broadcast_to, tile, atleast_1d/2d/3d, take, take_along_axis, split, stack, concat, vstack, hstack, dstack, column_stack and where gives the instance whose records are those numpy's function gives on the array of records, for every argument (negative, omitted and out-of-range axes included), and raises exactly when numpy does.", "quantifier": "every scalar class (nested to any depth), batch shape, contents and argument", "why_tests_cant": "All classes, shapes, axes and contents at once.", "anchors": ["xtructure/core/xtructure_numpy/dataclass_ops/shape_ops.py", "xtructure/core/xtructure_numpy/dataclass_ops/spatial_ops.py", "xtructure/core/xtructure_numpy/dataclass_ops/batch_ops.py", "xtructure/core/xtructure_numpy/dataclass_ops/logical_ops.py", "xtructure/core/xtructure_decorators/indexing.py"]}
{"id": "C68", "title": "pad in a copying mode copies whole records", "statement": "pad(x, pad_width, mode) with mode edge, wrap, symmetric or reflect returns the padded batch shape; the records of x are where the leading pads put them; every other record is, with all fields, the record of x that the mode's continuation of each batch axis shows there (end record repeated; periodic; mirrored outside the end; mirrored on the end); intrinsic axes are not padded. A single record becomes copies of itself. A negative pad, or a pad of an empty axis, raises.", "quantifier": "every class, batch shape, contents, pad width and copying mode", "why_tests_cant": "All shapes and pad widths, pads longer than the axis included.", "anchors": ["xtructure/core/xtructure_numpy/dataclass_ops/batch_ops.py"]}
{"id": "C69", "title": "block assembles batches of records like numpy's block assembles arrays", "statement": "block of nested lists of instances of one class is the batch that numpy's block makes of their arrays of records; in particular a grid of two-axis batches with matching heights and widths gives the batch in which record (r, k) of block (i, j) is at (r, k) shifted by the blocks above and to the left, with all fields. It raises exactly when numpy does, and rejects blocks of different classes.", "quantifier": "every class, nesting, batch shapes and contents", "why_tests_cant": "All nestings and shapes.", "anchors": ["xtructure/core/xtructure_numpy/dataclass_ops/batch_ops.py"]}
{"id": "C70", "title": "unique_mask_legacy marks exactly the representatives, with no hashing", "statement": "unique_mask_legacy marks exactly one entry per group of equal filled items: the one of least key, the earliest on ties (without key: the first); the inverse numbers two entries alike iff their items are equal and both or neither are filled; index[inverse[i]] is the representative of entry i. Items of any number of words are compared exactly, so the result equals unique_mask's wherever the latter's hashes do not collide.", "quantifier": "every batch, items of any number of words, with or without key and filled", "why_tests_cant": "All batches, keys and masks; hash collisions of the other implementation.", "anchors": ["xtructure/core/xtructure_numpy/dataclass_ops/unique_ops/legacy_unique_ops.py"]}
{"id": "C71", "title": "BGPQ keeps items whatever their float key, -inf included", "statement": "An item inserted with any key below +inf (a finite key or -inf) while there is room is stored, counted by size and returned before every item with a larger key.", "quantifier": "every history and every key below +inf", "why_tests_cant": "All histories and keys.", "anchors": ["xtructure/bgpq/bgpq.py", "xtructure/bgpq/_insert.py"]}
{"id": "C72", "title": "Every bucket size works: items reported inserted stay findable", "statement": "For any bucket_size passed to HashTable.build, an item for which insert reports True is found by lookup afterwards.", "quantifier": "every bucket size, hash function, history of inserts", "why_tests_cant": "All bucket sizes and histories; the failure needs 256 items in one bucket.", "anchors": ["xtructure/hashtable/table.py:HashTable.build", "xtructure/hashtable/lookup.py:_hashtable_lookup_internal", "xtructure/hashtable/constants.py:SLOT_IDX_DTYPE"]}
{"id": "C73", "title": "Equal instances have equal hashes and find each other in a table", "statement": "If two instances of a class compare equal with ==, their hash, hash_pair, uint32ed and bytes agree for every seed, and looking up one finds the other in a hash table.", "quantifier": "every class, pair of equal instances, seed and streaming mode", "why_tests_cant": "All bit patterns of all fields.", "anchors": ["xtructure/core/xtructure_decorators/ops.py:add_comparison_operators", "xtructure/core/xtructure_decorators/hash.py", "xtructure/hashtable/lookup.py"]}
{"id": "C74", "title": "Unknown field names are rejected by set_unpacked and from_unpacked", "statement": "A call of set_unpacked or from_unpacked with a keyword argument that is not a field of the class raises.", "quantifier": "every class, every set of keyword arguments, every batch shape", "why_tests_cant": "All argument sets; the outcome depends on which other fields are given.", "anchors": ["xtructure/core/xtructure_decorators/bitpack_accessors.py"]}
{"id": "C75", "title": "The public functions of a list accept a non-empty list of arrays or of instances of one class, nothing else", "statement": "concat, concatenate, stack, vstack, hstack, dstack and column_stack succeed only on a non-empty list of arrays, giving what jax.numpy gives, or on a non-empty list of instances of one class, giving an instance of that class by the function on instances. An empty list is a ValueError, a mixture of arrays and instances a TypeError at any position, two different classes an error. where succeeds on an instance and an instance of the same class or an array, without size and fill_value; update_on_condition likewise.", "quantifier": "every list of arguments, of any length and in any order; every axis", "why_tests_cant": "All argument lists and orders.", "anchors": ["xtructure/core/xtructure_numpy/__init__.py"]}
{"id": "C76", "title": "take, concat and concatenate without an axis treat a batch as the flat sequence of its records", "statement": "With axis=None (the default of take) take(x, indices) selects the records counted in row-major order, and concat/concatenate(xs, axis=None) give the flat sequence of all records.", "quantifier": "every class, every batch shape, every index array", "why_tests_cant": "All classes and shapes; the outcome depends on the intrinsic shapes of the fields.", "anchors": ["xtructure/core/xtructure_numpy/__init__.py"]}
{"id": "C77", "title": "How field names and members of the class body interfere with what the decorator adds", "statement": "A class can be declared exactly when every annotation gives a descriptor and no field name begins with an underscore or is from_tuple, to_tuple, replace or batch. Instances can be constructed exactly when no field is called like a property the decorator adds (shape, dtype, packed, x_unpacked for a packed field x, ...); otherwise the constructor raises AttributeError. Every field of an instance reads back as given, and default() then works; every added property reads as such on instances, and so does every added method unless a field has its name. A member of the class body is kept exactly when the decorator defines no property or method of that name; the numpy-like methods never replace one.", "quantifier": "every list of field names, every set of members in the class body, every bit-packing policy, every order of keyword arguments", "why_tests_cant": "All names: a test can only try a few.", "anchors": ["xtructure/core/dataclass.py", "xtructure/core/xtructure_decorators/__init__.py", "xtructure/core/xtructure_decorators/shape.py", "xtructure/core/xtructure_decorators/method_factory.py", "xtructure/core/xtructure_decorators/bitpack_accessors.py"]}
{"id": "C78", "title": "A decorated subclass has the fields of its base and its own", "statement": "Decorating a subclass of a decorated class gives a class with the fields of the base and its own: instances hold and index all fields, default() creates them all, shape and dtype describe them all, and a redeclared field has the new descriptor.", "quantifier": "every base class, every set of added and redeclared fields, every order of keyword arguments", "why_tests_cant": "All classes and field sets.", "anchors": ["xtructure/core/field_descriptors.py:get_field_descriptors", "xtructure/core/dataclass.py", "xtructure/core/xtructure_decorators/default.py"]}
{"id": "C79", "title": "The two ways of writing a field mean the same", "statement": "f: Annotated[T, ..., d, ...] with d the first field descriptor among the metadata declares the same class as f: d, whatever T and the other metadata are; an annotation without a descriptor makes the declaration raise ValueError.", "quantifier": "every class body, every position of the field, any metadata before and after the descriptor", "why_tests_cant": "All class bodies.", "anchors": ["xtructure/core/field_descriptors.py:_descriptor_from_annotation", "xtructure/core/field_descriptors.py:extract_field_descriptors_from_annotations"]}
{"id": "C80", "title": "can_cast and result_type work field by field", "statement": "can_cast(x, t) for a dtype t is True exactly when every field of x, nested ones included, can be cast to t, and for an instance t of the same class exactly when every field can be cast to the same field of t; an instance without fields can be cast to anything. result_type of instances of one class is an instance of that class whose fields are the result types of that field over all arguments; mixing an instance with a dtype or another class raises. A numpy scalar type such as np.float32 given as t, which numpy takes for a dtype, is not taken for one: can_cast of an instance with fields raises.", "quantifier": "every class (any nesting), all dtypes of the fields, every casting rule, any number of arguments", "why_tests_cant": "All class shapes, dtypes and numbers of arguments.", "anchors": ["xtructure/core/xtructure_numpy/dataclass_ops/type_ops.py:can_cast", "xtructure/core/xtructure_numpy/dataclass_ops/type_ops.py:result_type", "xtructure/core/xtructure_numpy/__init__.py:can_cast"]}
{"id": "C81", "title": "NaN keys in a BGPQ are treated like padding", "statement": "A BGPQ given blocks in which any keys are NaN behaves, for every history of insert and delete_mins, like a priority queue in which entries with a NaN key do not exist: they are not counted in size, take no room, never disturb the order of the other entries, and delete_mins never returns a NaN key.", "quantifier": "every total_size and batch_size, every history of inserts and delete_mins, NaN at any positions of any block, all other keys and values", "why_tests_cant": "All histories and all placements of NaN; NaN breaks the comparisons the heap relies on.", "anchors": ["xtructure/bgpq/_insert.py:_bgpq_insert_jit", "xtructure/bgpq/_delete.py:_bgpq_delete_mins_jit", "xtructure/bgpq/_utils.py:merge_sort_split", "xtructure/bgpq/merge_split/loop.py"]}
{"id": "C82", "title": "Settings of the BGPQ never change its results", "statement": "For every assignment of the environment variables XTRUCTURE_BGPQ_* (merge backend, key-value backend per merge site with its automatic threshold, block size, unrolling, warps, stages, value packing, value reordering), every device and every value class, a history of insert and delete_mins whose settings the code accepts returns exactly what the queue that merges by sorting returns: same sizes, same keys and values, same order among equal keys. Settings are accepted exactly when the variables that are read hold a documented word or an integer in the documented range and the chosen kernel can be used; otherwise the call raises and changes nothing. With no variable set every call is accepted.", "quantifier": "every environment, device, value class, total_size, batch_size and history; all keys of a total preorder with a greatest element", "why_tests_cant": "All combinations of a dozen settings times all histories; the kernels need a GPU.", "anchors": ["xtructure/bgpq/_merge.py:merge_sort_split", "xtructure/bgpq/_utils.py:_use_kv_backend", "xtructure/bgpq/_constants.py", "xtructure/bgpq/_insert.py:_bgpq_merge_buffer_jit", "xtructure/bgpq/merge_split/parallel.py:merge_arrays_parallel_kv", "xtructure/bgpq/merge_split/parallel.py:merge_arrays_parallel"]}
{"id": "C83", "title": "Settings of the hash table never change what it holds", "statement": "For every assignment of the environment variables XTRUCTURE_HASHTABLE_* (sort backend, de-duplication mode, use of the GPU and TPU kernels, warps, stages, probe limits) and every device, a history of insert, parallel_insert, lookup and lookup_parallel on a new table returns the answers of a set: the found and inserted flags, the unique masks and the sizes are determined by the calls alone, and do not depend on the settings, the device, the schedule of the GPU programs, the order an unstable sort gives to equal keys, the hash functions or the shape of the table. This holds while the offered items have room, unless a probe limit below the number of buckets is asked for, as long as no filled lane of a partly filled batch encodes to the sentinel, no two different items of a batch have equal hashes where approximate de-duplication is asked for, and on the XLA path max_probes is large enough for each batch. parallel_insert accepts exactly the documented words and positive integers in the variables that are read and raises ValueError otherwise; with no variable set it is always accepted.", "quantifier": "every environment at import and at tracing, device, hash function, table shape, history of calls, schedule and sort order", "why_tests_cant": "All combinations of settings times all histories, schedules and unstable sort orders; the kernels need a GPU or TPU.", "anchors": ["xtructure/hashtable/hash_utils.py:_parse_bool_env", "xtructure/hashtable/hash_utils.py:_parse_int_env", "xtructure/hashtable/hash_utils.py:_compute_unique_mask_from_hash_pairs", "xtructure/hashtable/insert.py:_hashtable_parallel_insert_jit", "xtructure/hashtable/insert_triton.py:reserve_slots_triton", "xtructure/hashtable/insert_pallas.py:_parse_max_probe_buckets"]}
{"id": "C84", "title": "parallel_insert with NaN or integer unique_key", "statement": "parallel_insert(inputs, filled, unique_key) takes keys of any real dtype. Whatever the keys, NaN included, lookup afterwards finds exactly the stored items, stored items stay at their index, and the contents grow by exactly the lanes reported inserted, which are filled, new and different from each other. In the safe and exact modes an item is represented by its cheapest filled lane, ties by the lowest lane, also when the keys are integers, and is stored while there is room. (False of the code in two ways: integer keys are converted to floats, so that beyond 2^24 in magnitude, 2^53 with x64, a dearer earlier lane can win, though only when the float cannot tell the two keys apart; and an item one of whose filled lanes has a NaN key, other than the item of lane 0, is dropped: no lane of it is inserted, also not one with a number as key, and its lanes return the index of lane 0.)", "quantifier": "every history of table operations including batches with NaN keys, every batch, fill mask, list of keys, backend and schedule; every float precision", "why_tests_cant": "NaN propagation through a segmented minimum and rounding of integers depend on which keys share a group; tests use small distinct float keys.", "anchors": ["xtructure/hashtable/hash_utils.py:_compute_unique_mask_from_uint32eds", "xtructure/hashtable/hash_utils.py:_compute_unique_mask_from_hash_pairs", "xtructure/hashtable/insert.py:_hashtable_parallel_insert_jit"]}
{"id": "C85", "title": "Settings of hashing and aggregate packing never change what is told apart", "statement": "XTRUCTURE_HASH_AGG_MODE, XTRUCTURE_HASH_STREAM, XTRUCTURE_HASH_STREAM_THRESHOLD_U32 (read when a class is decorated) and XTRUCTURE_AGG_BITPACK_PACK_BACKEND, XTRUCTURE_AGG_BITPACK_PACK_WORD_TILE (read on packing) accept exactly the documented words and raise otherwise. No setting, device or order of GPU programs changes `packed`. A class without aggregate layout has the same bytes, uint32ed and hashes under all settings. For a class with one, only the choice between raw and packed hashing shows; in both, two instances have equal uint32ed (equal bytes) iff they are equal, and a hash table answers the same calls in the same way under all settings. (False of the code in these cases: a class all of whose leaves are empty arrays hashes differently with streaming on; in packed mode values outside the range of their bits are hashed modulo 2^bits, so that different instances get the same uint32ed and de-duplication drops one of them; in packed mode a batched instance is hashed without the tails of all elements but the first; a table filled in raw mode cannot be searched in packed mode.)", "quantifier": "every environment and device, every class layout and instance, every seed, every kernel schedule, every history of table calls", "why_tests_cant": "The settings multiply: 3 x 3 x thresholds x 4 backends x tiles x devices x class layouts; tests run one device with a few settings and small classes.", "anchors": ["xtructure/core/xtructure_decorators/hash.py:byterize_hash_func_builder", "xtructure/core/xtructure_decorators/aggregate_bitpack/__init__.py:_pack_backend", "xtructure/core/xtructure_decorators/aggregate_bitpack/__init__.py:_pack_instance"]}
{"id": "C86", "title": "bitpack_schema tells where every bit of a packed record is", "statement": "Cls.bitpack_schema() lists the leaves of the class, nested ones included, in declaration order with their declared width, shape and dtype; each starts where the one before ends; total_bits is the sum, payload_bytes the bytes that hold it. Every packed record has words_len words and tail_bytes tail bytes, storage_bytes in all, at most one more than payload_bytes. Bit k of entry i of a field is bit bit_offset + i*bits + k of the record. unpack_field with a path of the schema (as a string or a tuple) gives the field of .unpacked with its dtype and shape, with dtype_policy='declared' the field of as_original(); it raises KeyError exactly for strings not in the schema and ValueError exactly for other policies.", "quantifier": "every class with aggregate layout, every batch and contents, every packing backend, every field, entry and bit, every string", "why_tests_cant": "Layouts, contents and names are unbounded; the test checks three numbers of one schema.", "anchors": ["xtructure/core/xtructure_decorators/aggregate_bitpack/__init__.py:bitpack_schema", "xtructure/core/xtructure_decorators/aggregate_bitpack/__init__.py:unpack_field", "xtructure/core/xtructure_decorators/aggregate_bitpack/spec.py:_build_agg_spec"]}
{"id": "C87", "title": "unique_mask with arguments of every kind", "statement": "unique_mask accepts key_fn values of every integer and float dtype, float keys with NaN, a filled mask of one flag, a static size and a negative fill_value, eager or under jit: an entry with a NaN key is excluded like one with key +inf; valid entries with a NaN in the key_fn value are equal to nothing and each marked; otherwise the mask marks exactly the preferred entry of every group with equal key_fn values, index lists the marked entries cut or padded to the size, inverse gives places in it. It raises exactly for a key of another length, an integer key, a filled mask of another length, key_fn values that do not divide into batch_len rows, and a fill_value outside int32. The legacy version marks no entry of a group in which a filled entry has a NaN key.", "quantifier": "every batch, key_fn value of every dtype with a total order on numbers, key, filled, batch_len, size and fill_value, eager and jit, with and without x64", "why_tests_cant": "dtypes, NaN patterns and argument combinations are unbounded; the tests use uint32 rows, finite keys and matching lengths.", "anchors": ["xtructure/core/xtructure_numpy/dataclass_ops/unique_ops/optimized_unique_ops.py:unique_mask", "xtructure/core/xtructure_numpy/dataclass_ops/unique_ops/legacy_unique_ops.py:unique_mask_legacy", "xtructure/core/xtructure_numpy/__init__.py:unique_mask"]}
{"id": "C88", "title": "Containers keep the fields of a record together", "statement": "Stack, Queue, HashTable and BGPQ store a dataclass with any fields, shapes and nested dataclasses as one instance, writing and reading it field by field. Whatever order the scatters of the fields apply their updates in, and for every history: a Stack or Queue returns whole records, exactly those an ordinary list of records would return (single instance for one item, batched instance for several), after overflow and clear as in C02 and C05; a record that HashTable.insert or parallel_insert reports as inserted is returned with the values of all its fields by table[i], after any further history, and the table behaves as the table of items of C16-C27; the values BGPQ returns carry, in every field, the entry of the same record. Pushing a batch with two or more axes raises.", "quantifier": "every class (fields, intrinsic shapes, nesting, constant fill values for HashTable), capacity, history of calls, backend, dedupe mode and per-field order of scatter updates", "why_tests_cant": "classes, histories and scatter orders are unbounded; the tests use a few small classes and one backend order.", "anchors": ["xtructure/stack/stack.py:Stack", "xtructure/queue/queue.py:Queue", "xtructure/hashtable/insert.py:_scatter_set_xtructurable_drop", "xtructure/hashtable/insert.py:_hashtable_insert_jit", "xtructure/bgpq/bgpq.py:BGPQ", "xtructure/core/xtructure_decorators/indexing.py"]}
{"id": "C89", "title": "take and take_along_axis put whole records at out-of-range indices", "statement": "take(x, indices, axis, mode, fill_value) along a batch axis gives, for every index, a whole record of x: with mode='clip' the record nearest to the index, with mode='wrap' the record whose position differs from it by a multiple of the axis length, with mode='fill' (the default) the record counted from the end for negative indices and, for an index that is out of range, a record all of whose entries are fill_value. take_along_axis with mode or fill_value does the same for the index array of every position, and otherwise equals the call without them. An empty axis raises.", "quantifier": "every class, batch shape, axis, index array (any shape, any integers), mode and fill value", "why_tests_cant": "index arrays and shapes are unbounded, and the interesting indices are out of range; the tests use in-range indices and the default mode.", "anchors": ["xtructure/core/xtructure_numpy/__init__.py:take", "xtructure/core/xtructure_numpy/__init__.py:take_along_axis", "xtructure/core/xtructure_numpy/dataclass_ops/batch_ops.py:take_along_axis"]}
{"id": "C90", "title": "A save that stops half-way never yields a mixed file, and histories of saves", "statement": "Wherever save(path, x) stops (before opening the file, killed while writing, by an exception after any number of members, or at the end), loading path afterwards gives x, or what it gave before, or raises: never an instance mixed from both or with fields missing; it gives x if the call returned; loading any other path is unaffected. After any history of such saves, load(path) gives the instance of the last save that opened the file if that save returned and raises if it did not. In particular an interrupted save does not leave the previous contents of path loadable: once the file was opened and the save did not return, load(path) raises.", "quantifier": "every history of saves, each with any class, instance, packed flag and crash point, and every path loaded afterwards", "why_tests_cant": "crash points and histories are unbounded; tests only call save to completion.", "anchors": ["xtructure/io/io.py:save", "xtructure/io/io.py:load"]}
{"id": "C91", "title": "Loading a file after the class definition has changed", "statement": "A file written from an instance x of a class and loaded when the class of that name has another definition: if load succeeds, the result is an instance of the new class whose array at every path is derived from the array x had at the same path; load raises exactly if some path of the new class was missing in the old one (or its array cannot be restored in the new dtype). Hence removed and reordered fields, at any depth, are harmless and all remaining arrays are exactly the saved ones; an added field always raises; a field that was saved in packed form comes back with its stored bit width in the newly declared dtype. An array that was not saved in packed form comes back exactly as saved, so a loaded array need not have the dtype the class now declares.", "quantifier": "every old and new class (nested to any depth, field names other than npy and __xtructure_bitpack__), instance, packed flag, path", "why_tests_cant": "pairs of class definitions are unbounded; the tests load with the class that saved.", "anchors": ["xtructure/io/io.py:_unflatten_data_for_load", "xtructure/io/io.py:load", "xtructure/io/io.py:_flatten_instance_for_save"]}
{"id": "C92", "title": "Blocks of any length given to BGPQ.insert", "statement": "BGPQ.insert does not check the length of its block. For every history of inserts with blocks of any length and delete_mins: delete_mins returns batch_size entries in key order, removes exactly their items, leaves nothing smaller behind and returns a partly filled batch only when the queue becomes empty; no insert makes up or duplicates an item; draining until size is 0 returns everything stored, in order. If every block has at least batch_size entries, nothing is lost while there is room. A block shorter than batch_size can lose items silently: as long as what does not fit into the front batch stays in the buffer, exactly as many as the buffer, which becomes shorter, cannot hold; from a state reached with full blocks, with a full front batch and an empty buffer, it is one item, and a short block makes the next full one lose an item. For blocks longer than batch_size, size can be less than the number of stored items between deletes, and max_size is no limit.", "quantifier": "every total_size, batch_size, history of inserts with blocks of any length and keys, and deletes", "why_tests_cant": "histories and block lengths are unbounded; the tests insert blocks of exactly batch_size entries.", "anchors": ["xtructure/bgpq/bgpq.py:BGPQ.insert", "xtructure/bgpq/_insert.py:_bgpq_insert_jit", "xtructure/bgpq/_insert.py:_bgpq_merge_buffer_jit"]}
{"id": "C93", "title": "Keys of another dtype than key_dtype", "statement": "For every key_dtype and every history of inserts (keys of any dtype) and deletes: delete_mins never raises for dtype reasons, an insert raises TypeError exactly if promoting the keys' dtype with key_dtype does not give key_dtype (so a default queue, float16, rejects float32 keys and accepts float16, integer and boolean ones), and the queue's dtypes never change. An accepted insert stores exactly the pairs whose converted key is finite, under the converted key, size counts them and delete_mins returns the smallest in converted order. Integer keys are therefore not always ordered as integers: in a default queue, integers of 65520 or more become inf and their items are not stored, up to 2048 they are exact, and different integers above 2048 can become the same key.", "quantifier": "every key_dtype and dtype of keys (boolean, integers, floats of 16 to 64 bits), every order-preserving key conversion, every history of inserts in any mixture of dtypes and of deletes", "why_tests_cant": "histories, keys and dtypes combine without bound; the tests cast keys to the queue's dtype.", "anchors": ["xtructure/bgpq/bgpq.py:_bgpq_build_jit", "xtructure/bgpq/_insert.py:_bgpq_insert_jit", "xtructure/bgpq/_insert.py:_bgpq_insert_heapify_internal", "xtructure/bgpq/_delete.py:_bgpq_delete_mins_jit"]}
{"id": "C94", "title": "Stacks and queues asked for more items than they hold", "statement": "Popping or dequeuing k items from a stack or queue that holds fewer does not just leave it empty. For every history that may pop, peek, dequeue and index beyond the contents, without overfilling: the container remembers how many items were asked for in excess (its debt m); size then reports 2^32 - m, the next m items put in are swallowed (in order, across any split into single and batched calls), after which the container behaves like one that started empty; every request for items that are really there returns exactly those items; clear on a queue pays the debt.", "quantifier": "every capacity below 2^31, every item type and every interleaving of single/batched push, pop, peek, indexing and size (stack) or enqueue, dequeue, peek, clear, indexing and size (queue) within the capacity, with a debt of at most 2^31", "why_tests_cant": "the effect shows only in later calls, and the history between the excess and its effect is unbounded; the tests never over-ask and then continue.", "anchors": ["xtructure/stack/stack.py:_stack_pop_jit", "xtructure/stack/stack.py:_stack_push_jit", "xtructure/queue/queue.py:_queue_dequeue_jit", "xtructure/queue/queue.py:_queue_enqueue_jit", "xtructure/queue/queue.py:Queue.clear"]}
{"id": "C95", "title": "A search that keeps states in a HashTable and its frontier in a BGPQ", "statement": "Generated states go through parallel_insert (keys as unique_key); the lanes reported inserted are pushed on a BGPQ as (key, table index), the rest as inf; delete_mins gives indices that are read back with table[idx]. If the queue's max_size plus batch_size exceeds the table's slots, then in every history every call succeeds, each distinct state is opened exactly once, with the key of one of its lanes; each delete_mins returns exactly the min(batch_size, open) best open states themselves, sorted; no state is returned twice; returned plus open states are exactly the stored ones (so an empty queue means every stored state was returned); table.size and queue.size count states seen and open. With exact de-duplication, a back-end that places all that fits, and a slot per generated lane, no generated state is missed and each is opened with its least key.", "quantifier": "every state type, hash function, table and queue parameters, back-end and mode per call, batch, mask, key and interleaving of expansions and requests", "why_tests_cant": "it combines three containers' invariants over unbounded histories: indices handed out by one call are dereferenced arbitrarily later, after the table has grown and the heap has been rearranged.", "anchors": ["README.md", "xtructure/hashtable/insert.py:_hashtable_parallel_insert_jit", "xtructure/hashtable/table.py:HashTable.__getitem__", "xtructure/bgpq/bgpq.py:BGPQ.insert", "xtructure/bgpq/bgpq.py:BGPQ.delete_mins"]}
{"id": "C96", "title": "A best-first search that re-opens states: table, cost array and queue stay in step", "statement": "Beside the table the user keeps costs, one per slot, first inf. Each batch goes through parallel_insert (keys as unique_key); the unique lanes whose key is below costs[idx] are written with update_on_condition and pushed on a BGPQ as (key, idx); delete_mins gives entries that are read back as table[idx] and are up to date iff key <= costs[idx]. With exact de-duplication, a back-end that places all that fits, and a slot and queue place per generated lane: in every history every call succeeds; costs at a state's index is the least key ever generated for it; exactly the strict improvements are pushed, one per state, with the best key of the batch; each request returns the best open entries, sorted, and the up-to-date flag is exact. No two returned entries of one state have equal keys; when the queue is empty every generated state has been returned, flagged up to date, with its least key. If keys of a batch are never below keys returned before it, a key flagged up to date is final and no state is flagged twice.", "quantifier": "every state type, hash function, table and queue parameters, back-end and mode per call, batch, mask, finite keys, scatter order of the cost update, and interleaving of expansions and requests", "why_tests_cant": "four components (dedupe, table, conditional update, heap) must agree on indices over unbounded histories; a stale index or a wrong winner among duplicate lanes would silently lose the best path to some state.", "anchors": ["README.md", "xtructure/hashtable/insert.py:_hashtable_parallel_insert_jit", "xtructure/core/xtructure_numpy/array_ops.py:_update_array_on_condition", "xtructure/hashtable/table.py:HashTable.__getitem__", "xtructure/bgpq/bgpq.py:BGPQ.insert", "xtructure/bgpq/bgpq.py:BGPQ.delete_mins"]}
{"id": "C97", "title": "How the dtype and shape of a field may be written", "statement": "FieldDescriptor[dtype], [dtype, shape], [dtype, fill] and [dtype, shape, fill] mean the constructor call with these arguments; a class is accepted exactly when every array field has a number/bool scalar type or a dtype object; scalar types and dtype objects are interchangeable. Shapes must be tuples and 64-bit dtypes cannot be validated: with an integer shape default works but shape, len, ndim, structured_type, validation, nested random and bitpack='auto' raise TypeError; with a list default raises and instances are UNSTRUCTURED although validation accepts them; with x64 off no value passes the validation of a 64-bit field, so even default() and random() raise.", "quantifier": "every class (any fields, nesting and fill values), every spelling of dtypes and shapes, every batch shape and instance, both settings of x64", "why_tests_cant": "the combinations of spelling, nesting, bit-packing mode, validation and operation are unbounded; tests use tuples and 32-bit types.", "anchors": ["xtructure/core/field_descriptors.py:FieldDescriptor.__class_getitem__", "xtructure/core/xtructure_decorators/default.py:_create_default_method", "xtructure/core/xtructure_decorators/shape.py:add_shape_dtype_len", "xtructure/core/xtructure_decorators/structure_util.py:add_structure_utilities", "xtructure/core/xtructure_decorators/validation.py:add_runtime_validation", "xtructure/core/field_descriptor_utils.py:with_intrinsic_shape"]}
{"id": "C98", "title": "Instance methods and the public functions of the same name", "statement": "x.reshape, flatten, transpose, swapaxes, moveaxis, squeeze, expand_dims, broadcast_to, roll, flip, rot90, astype and pad return what the xnp function of that name returns for x as first argument; x.reshape(2, 3), x.reshape((2, 3)) and xnp.reshape(x, (2, 3)) agree (xnp.reshape(x, 2, 3) is refused); x.block() is x. The methods vstack, hstack, dstack and column_stack do not stack x and y: they unpack the instance x itself, so on a non-empty batch, or a single record whose fields all have axes, the call never returns (the iteration has no end), and on a single record with a scalar field it raises.", "quantifier": "every class, instance, batch shape and argument of the methods", "why_tests_cant": "the methods are attached to every class and act on any tree of fields and batch shape; non-termination cannot be observed by a test at all.", "anchors": ["xtructure/core/xtructure_decorators/method_factory.py:add_xnp_instance_methods", "xtructure/core/xtructure_numpy/dataclass_ops/batch_ops.py:vstack", "xtructure/core/xtructure_numpy/__init__.py:reshape"]}
{"id": "C99", "title": "Changing settings while a program runs never changes results", "statement": "A program may change XTRUCTURE_BGPQ_* and XTRUCTURE_HASHTABLE_* between calls. Whatever the environment is at each call and whatever traced functions the process has kept from earlier calls (also of other queues, and of calls that raised): the calls that return give what the sort-based queue and the set of offered items give, and the calls that raise change nothing. A call whose current settings are acceptable never raises; the first call of a process raises exactly when its settings are not acceptable; after a call of a kind on a queue or table shape has returned, later calls of that kind are independent of the environment: changes are neither followed nor refused. (For the table: accepted environments leave probe limits alone, and the side conditions of C83.)", "quantifier": "every sequence of calls, environments, queue and table shapes, any number of queues in one process, every caching key of the traced functions (hash table), device, schedule", "why_tests_cant": "the result of a call depends on the history of all earlier calls through the trace caches; tests run each setting in a fresh process.", "anchors": ["xtructure/bgpq/_merge.py:merge_sort_split", "xtructure/bgpq/_insert.py:_bgpq_merge_buffer_jit", "xtructure/bgpq/_insert.py:_bgpq_insert_jit", "xtructure/bgpq/_delete.py:_bgpq_delete_mins_jit", "xtructure/hashtable/insert.py:_hashtable_parallel_insert_jit"]}
{"id": "C100", "title": "What the two hashes of an instance tell", "statement": "hash_pair(seed) gives two 32-bit hashes of an instance. For every class, instance, seed and streaming mode the two differ, so that no instance has the pair of equal sentinels that parallel_insert gives to unfilled lanes. Changing any one 32-bit word of an instance changes both hashes. The pair is no stronger than one hash: for instances of one class and one seed the second hash is a function of the first, so the pair tells apart exactly what one hash tells apart; in a class with two 32-bit words every change of one word can be hidden by exactly one value of the other, and approximate de-duplication keeps only one of such twins. In-batch de-duplication and the indices of parallel_insert are exact, for every batch, mask and key, for all classes of at most 8 words with a boolean field or padding (modes safe, exact) and for all classes of at most one word (modes safe, approx).", "quantifier": "every class layout, instance, seed, streaming mode, batch, mask and key; every number of words", "why_tests_cant": "collisions of 32-bit hashes are not met by samples, and that the two hashes never coincide is a statement about all word counts.", "anchors": ["xtructure/core/xtructure_decorators/hash.py:hash_fast_uint32ed_pair", "xtructure/core/xtructure_decorators/hash.py:_hash_pair_streaming_from_leaves", "xtructure/core/xtructure_decorators/hash.py:_avalanche32", "xtructure/hashtable/hash_utils.py:_compute_unique_mask_from_hash_pairs", "xtructure/hashtable/insert.py:_hashtable_parallel_insert_jit"]}
{"id": "C101", "title": "merge_buffer on its own", "statement": "BGPQ.merge_buffer(keys, values), a public method, merges a sorted block of batch_size pairs into the buffer of a queue. No pair is lost or made up: what the queue held and the block are what the returned queue and the returned block hold. The flag is True exactly when block and buffer together have at least batch_size finite keys; then the returned block is full, sorted and no larger than anything left in the buffer; otherwise it holds no item. If no key of the block is below the batch that delete_mins would return next, delete_mins still returns the batch_size smallest items, also in all later histories of such calls. If some key of the block is below that batch, it does not: merge_buffer never changes that batch, so delete_mins returns larger keys first, on an empty queue nothing but padding although size is positive.", "quantifier": "every queue reachable by insert, delete_mins and merge_buffer, every sorted block, every key type and size", "why_tests_cant": "the failure needs a block with small keys at the right moment; conservation is about all heap shapes.", "anchors": ["xtructure/bgpq/bgpq.py:BGPQ.merge_buffer", "xtructure/bgpq/_insert.py:_bgpq_merge_buffer_jit", "xtructure/bgpq/_delete.py:_bgpq_delete_mins_jit"]}
{"id": "C102", "title": "A batch kept in packed form behaves like the batch", "statement": "Selecting records (indexing, slicing, take, reordering, with repetitions) and concatenating may be done on the packed form or on the batch: packing commutes with both, and so does unpacking, also for packed instances that were not made by packing (Packed.default, Packed.random, loaded or computed). Unpacking such an instance always succeeds and gives values that fit their fields; packing that result gives the instance back exactly when its unused bits are zero, so always for classes whose fields fill the words and bytes; every other class has packed records that differ and unpack to equal contents. Packed.default() is not the packing of default(): it unpacks to zeros whatever the fill values.", "quantifier": "every class of at most 2^32 bits per record, every batch, every selection, every packed instance of the right shape", "why_tests_cant": "the layouts are unbounded; random packed instances almost always have an unused bit set, but only when the class has unused bits and only equality shows it.", "anchors": ["xtructure/core/xtructure_decorators/aggregate_bitpack/__init__.py:add_aggregate_bitpack", "xtructure/core/xtructure_decorators/aggregate_bitpack/spec.py:_compute_word_tail_layout"]}
{"id": "C103", "title": "Concatenation may be done in steps", "statement": "A batch may be built from pieces in any grouping: concatenating groups and then the results along an axis is the same as concatenating all pieces at once, whatever the sizes of the groups; an empty batch among the pieces changes nothing; stack is concat along a new axis. For single records this holds for groups of two or more; concat of one single record is the record, not a batch of one, and concat of a batch and a single record raises, so records cannot be added to a batch one at a time.", "quantifier": "every class, every list of groups of batches that agree off the axis, every axis counted from the front", "why_tests_cant": "the groupings and shapes are unbounded; the failure depends on a group of size one.", "anchors": ["xtructure/core/xtructure_numpy/dataclass_ops/batch_ops.py:concat", "xtructure/core/xtructure_numpy/dataclass_ops/batch_ops.py:stack"]}
{"id": "C104", "title": "What the masks returned by parallel_insert tell", "statement": "The masks returned by parallel_insert: inserted is set exactly at the unique lanes whose item was not in the table before the call and is in it afterwards, whatever the batch, mask, key, mode and backend; no two unique lanes hold one item; size grows by the number of inserted lanes, which is the number of different new items. unique is set exactly at the best filled lane of each item of the batch, so it is set at as many lanes as there are different filled items. (False of the code: the documentation says unique is true if the item was new; inserting any stored item again sets unique.)", "quantifier": "every reachable table, batch, filled mask, key list, mode and backend", "why_tests_cant": "batches, tables and histories are unbounded; a test sees the masks of one call.", "anchors": ["xtructure/hashtable/insert.py:_hashtable_parallel_insert_jit", "xtructure/hashtable/insert.py:_hashtable_parallel_insert_internal", "docs/hashtable.md"]}
{"id": "C105", "title": "Instances of a validating class stay valid under operations", "statement": "For a class declared with validate=True: x[index] and x.at[index].set(y), set_as_condition never return an instance that check_invariants would refuse, and never return anything the same class without validation would not return. If every validator looks at one entry at a time, indexing a valid batch by an index of its batch axes, and updating a valid instance by a valid instance, never raises, gives exactly what the class without validation gives, and gives a valid instance, nested instances included; an index deeper than the batch axes raises. Functions that only move whole records (xnp, jit, vmap) give valid instances though nothing is checked. What validation does not give: set is not all or nothing, the exception of a nested validating class is swallowed and the other fields are written, so that without validators set on an instance of a class that does not itself validate never raises; x[i] of a valid batch can raise when a validator looks at the whole array; astype to a dtype a field does not have (and the comparisons) returns an instance check_invariants refuses; when a validator cannot run at all, as under jit where branching on an entry raises, nested instances silently keep their old values.", "quantifier": "every class declaration, validator, instance, batch shape, index and update value", "why_tests_cant": "classes, nestings, shapes and indices are unbounded; tests validate one class with one index.", "anchors": ["xtructure/core/xtructure_decorators/indexing.py:_Updater.set", "xtructure/core/xtructure_decorators/indexing.py:set_as_condition", "xtructure/core/xtructure_decorators/indexing.py:getitem", "xtructure/core/xtructure_decorators/validation.py:add_runtime_validation", "xtructure/core/dataclass.py:_dataclass_unflatten"]}
{"id": "C106", "title": "where, where_no_broadcast and update_on_condition keep the dtypes and values of fields", "statement": "where(c, x, y) of two instances with the same field dtypes keeps the dtypes and returns the selected entries unchanged; where_no_broadcast returns only if the dtypes are the same and keeps them; update_on_condition keeps the dtypes of the instance whatever the dtypes of the values. where(c, x, v) with a scalar or array v gives every field the common dtype of the field and v, each entry being that of x or of v converted to it; the dtypes are kept iff every field absorbs the dtype of v. (So the documented 'applies jnp.where between each field of x and the scalar' does not hold: a Python scalar is treated as int32 or float32, so where(c, x, 0) turns every integer and boolean field into int32, and a uint32 entry of 2^31 or more that is kept becomes negative; jnp.where keeps the dtype.) Converting to the common dtype of two integer dtypes keeps every integer except when uint32 meets a signed dtype.", "quantifier": "every class, nesting, shape, condition, entry and every pair of dtypes", "why_tests_cant": "dtype pairs times values times classes are unbounded; the tests use int32 and float32 fields with values that fit.", "anchors": ["xtructure/core/xtructure_numpy/dataclass_ops/logical_ops.py:where", "xtructure/core/xtructure_numpy/dataclass_ops/logical_ops.py:where_no_broadcast", "xtructure/core/xtructure_numpy/dataclass_ops/logical_ops.py:update_on_condition", "xtructure/core/xtructure_numpy/array_ops.py:_where_no_broadcast", "xtructure/core/xtructure_numpy/array_ops.py:_update_array_on_condition", "docs/xnp.md"]}
{"id": "C107", "title": "What may be given to at[index].set and set_as_condition", "statement": "x.at[index].set(v) and set_as_condition(cond, v) never raise for a value v with the fields of its class, and their effect depends on what v is. An instance of the class of x or of a subclass (which may have more fields): every array of x, nested ones included, is updated with the array at the same path of v. An array or scalar: it is written to every array of x, nested ones included, that it fits, and the others are kept. An instance of the class (or a subclass of it) of nested instances of x: exactly the outermost nested instances of such a class are updated with it, nothing else. An instance of any other class, also of a base class of x, or anything JAX does not take for an array: x is returned unchanged, without an error. Hence Stack.push and Queue.enqueue of an instance of another class count its records and store nothing.", "quantifier": "every instance (any nesting, any shapes and dtypes), every value, every subclass relation, every update operation on arrays", "why_tests_cant": "classes, nestings and kinds of values are unbounded; the tests set instances of the same class and scalars.", "anchors": ["xtructure/core/xtructure_decorators/indexing.py:_Updater.set", "xtructure/core/xtructure_decorators/indexing.py:_Updater.set_as_condition", "xtructure/stack/stack.py:_stack_push_jit", "xtructure/queue/queue.py:_queue_enqueue_jit"]}
{"id": "C108", "title": "Hash table items whose fields have another integer dtype than declared", "statement": "An instance may hold a field in another integer or bool dtype than its class declares (State(board=jnp.array([1, 2])) has an int32 field); nothing converts it before it is stored. An item stored in a HashTable equals a given one exactly if their numbers agree, provided the declared dtypes can hold the given numbers; the given dtypes do not matter for ==. If all items given to insert and lookup have the same dtypes, declared or not, and the declared dtypes can hold their numbers, the table behaves as a set of values: an item is found exactly if its value is stored, a reported insertion is found at its index (with the declared dtypes) after any further insertions, no value is stored twice and size counts them. With batches the same holds, and more: every call of every history of insert, parallel_insert, lookup and lookup_parallel returns what it returns for the class that declares the given dtypes (flags, masks, indices), if those can hold the default record. The same holds for dtypes that change from call to call if every field is a single non-negative number. Otherwise changing dtypes break it: equal instances with a negative number in a one-element field, given in signed dtypes of different width, have different hashes for every seed; [1, 2] stored as uint8 is not found as int32 and is stored a second time. An item with a number that the declared dtype cannot hold is stored converted, is never found, not even right after its insertion, and is inserted again while its first bucket has room (not so between uint32 and signed dtypes, which compare modulo 2^32).", "quantifier": "every class of integer and bool fields (any sizes), declared and given dtypes, values, seed, streaming mode, table parameters and history of calls, single and batched (batches in one choice of dtypes)", "why_tests_cant": "values, dtypes and histories are unbounded; the tests build items with the declared dtypes.", "anchors": ["xtructure/core/xtructure_decorators/ops.py:add_comparison_operators", "xtructure/core/xtructure_decorators/hash.py:_leaf_to_uint32", "xtructure/hashtable/insert.py:_hashtable_insert_jit", "xtructure/hashtable/lookup.py:_hashtable_lookup_internal"]}
{"id": "C109", "title": "Hash tables of dataclasses need no condition on hashes", "statement": "Items of a HashTable are dataclass instances hashed by hash_pair. With no setting made (or XTRUCTURE_HASHTABLE_DEDUPE_MODE=exact, for classes of any size), for every class of at most 8 32-bit words and every seed, parallel_insert without unique_key, or with keys that are not +inf in filled lanes, is exact whatever the hashes of the items: unique marks the best lane of each filled item, every filled lane whose item is stored gets its index, a table whose items have room returns the answers of a set for every history of calls on every device, and a search over such states (HashTable + BGPQ, C95 and C96) opens every generated state with its least key. (A filled lane with key +inf can lose its item: the instance with all bits set, next to an unfilled lane and a hash collision.)", "quantifier": "every class (raw or aggregate-packed) of at most 8 words, or of any size in mode exact; every seed, device, schedule, table parameters, history of calls, batch, mask and finite keys", "why_tests_cant": "hash collisions and all-ones words are too rare for tests to meet; the claim is about every batch.", "anchors": ["xtructure/hashtable/hash_utils.py:_compute_unique_mask_from_hash_pairs", "xtructure/hashtable/hash_utils.py:_compute_unique_mask_from_uint32eds", "xtructure/hashtable/insert.py:_hashtable_parallel_insert_jit", "xtructure/core/xtructure_decorators/hash.py:hash_pair"]}
{"id": "C110", "title": "Items whose fields have other dtypes than the container's class", "statement": "Nothing casts or checks the dtypes of what is given to x.at[index].set(v), Stack.push, Queue.enqueue and BGPQ.insert. For every class, every dtype of its fields and every dtype of the fields given: (1) at[...].set keeps the dtype of every field of x; if no integer field (boolean fields aside) is given floats, it does exactly what it would do with v converted to the dtypes of x, and no other entry changes; (2) under the same condition every history of calls on a Stack (Queue) behaves as a LIFO (FIFO) of the items converted to the dtypes of the class, and everything returned has the dtypes of the class; (3) an integer field given floats is converted to float and back as a whole, so one push can change integers stored earlier (16777217 becomes 16777216); (4) BGPQ.insert instead raises TypeError unless promoting every field given with the field of the class gives the class's dtype, and otherwise stores exactly the converted values under the converted keys.", "quantifier": "every class, every combination of boolean, integer (8 to 32 bits) and float (16 and 32 bits) dtypes, every index, every history of calls, every item; every arithmetic of floats that satisfies the stated laws", "why_tests_cant": "tests use a few dtype pairs and small numbers; the loss depends on values stored earlier and on pairs of dtypes.", "anchors": ["xtructure/core/xtructure_decorators/indexing.py:add_indexing_methods", "xtructure/stack/stack.py:_stack_push_jit", "xtructure/queue/queue.py:_queue_enqueue_jit", "xtructure/bgpq/_insert.py:_bgpq_insert_jit", "xtructure/bgpq/_merge.py:_gather_sorted_values"]}
{"id": "C111", "title": "Filtering a batch with unique_mask before a queue or a where", "statement": "(1) For items of at most 4 words of identity, any keys, any filled mask and any priority queue reached by builds, inserts and deletions: replacing the keys of the entries not marked by unique_mask(vals, key=keys, filled=filled) by +inf and inserting the batch with make_batched_vals and BGPQ.insert adds to the queue exactly one pair per distinct valid item, with the least key it has in the batch, and only these pairs need room. (2) The documented filter xnp.where(xnp.unique_mask(data, key=costs), data, Class.default()) keeps the representative of every distinct item and replaces every other entry by the default.", "quantifier": "every batch, key array, filled mask, default and reachable queue; every class (2: proved for classes of scalar fields)", "why_tests_cant": "tests of each function use a few batches and never run the functions together; the property ranges over all batches with duplicates, ties and infinite keys and over all queue histories.", "anchors": ["docs/xnp.md", "xtructure/core/xtructure_numpy/dataclass_ops/unique_ops/optimized_unique_ops.py:unique_mask", "xtructure/core/xtructure_numpy/dataclass_ops/logical_ops.py:where", "xtructure/bgpq/_insert.py:_bgpq_insert_jit"]}
{"id": "C112", "title": "Hash table items whose fields have other dtypes than the table's class", "statement": "insert, lookup, parallel_insert and lookup_parallel neither check nor convert the dtypes of the items they are given: an item is hashed with the dtypes it has, compared after promotion, and converted when it is written. For every class of integer fields, every integer dtypes of the items given, every history of inserts and parallel inserts, back-end, mode and seed: if the entries are in the range of the field of the class and the dtype has the same width or the field is a scalar that is not negative, the history leaves exactly the table that the history with converted items leaves, and every lookup answers as for the converted item. Otherwise items are lost: -1 stored as int8 in an int32 field is not found as int32 and can be stored twice; 300 given to a uint8 field is never found and takes another slot at every insert; inserting a float into an integer field can change another stored item, which is then not found.", "quantifier": "every class of integer fields, every integer dtypes (bool and 8 to 32 bits) and entries of the items given, every history, back-end, mode and seed", "why_tests_cant": "tests give items built with the dtypes of the class; the loss depends on dtype pairs, signs and values stored earlier.", "anchors": ["xtructure/hashtable/insert.py:_hashtable_insert_jit", "xtructure/hashtable/insert.py:_scatter_set_xtructurable_drop", "xtructure/hashtable/lookup.py:_hashtable_lookup_internal", "xtructure/core/xtructure_decorators/hash.py:byterize_hash_func_builder", "xtructure/core/xtructure_decorators/ops.py:add_comparison_operators"]}
{"id": "C113", "title": "Helpers that nothing in the package calls", "statement": "Two helpers are importable and documented but unused; both do what they say. _next(current, target): for every node of the 0-indexed heap whose node i has the children 2i+1 and 2i+2, and every other node target in its subtree (target + 1 < 2^32), the answer is a child of current with target in its subtree, so iterating it from the root walks to the target; at the target itself the answer is 2^32 - 1. _first_occurrence_mask(values, active, sentinel): if no active value is the sentinel, a lane is marked exactly if it is active and no active lane before it has its value; an active value equal to the sentinel is missed when an inactive lane precedes it.", "quantifier": "every heap node and target in its subtree below 2^32 - 1; every vector of values, every active mask and every sentinel that no active value equals", "why_tests_cant": "tests do not call them, and cannot range over all heap paths and masks.", "anchors": ["xtructure/bgpq/_utils.py:_next", "xtructure/hashtable/hash_utils.py:_first_occurrence_mask"]}
