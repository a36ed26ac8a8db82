{
 "claims": [
  {
   "property": "C01",
   "status": "proved",
   "theorems": [
    "Bfdev.Base64.base64_roundtrip",
    "Bfdev.Base64.base64_encode_rfc4648"
   ],
   "note": "model of encoder and decoder loops, RFC 4648 spec on bit streams"
  },
  {
   "property": "C02",
   "status": "proved",
   "theorems": [
    "Bfdev.Base32.base32_roundtrip",
    "Bfdev.Base32.base32_encode_rfc4648"
   ],
   "note": "as C01"
  },
  {
   "property": "C03",
   "status": "partial",
   "theorems": [
    "Bfdev.Ascii85.ascii85_roundtrip_partial",
    "Bfdev.Ascii85.ascii85_roundtrip_violated",
    "Bfdev.Ascii85.ascii85_zero_group_lost",
    "Bfdev.Ascii85.ascii85_encode_overread",
    "Bfdev.Ascii85.encode_fits",
    "Bfdev.Ascii85.decode_fits"
   ],
   "note": "the code violates the property for all-zero groups (z shorthand) and over-reads the input tail; proved for inputs without all-zero groups"
  },
  {
   "property": "C04",
   "status": "proved",
   "theorems": [
    "Bfdev.Base64.base64_decode_spec",
    "Bfdev.Base32.base32_decode_spec"
   ],
   "note": "all texts, all buffers of the announced length"
  },
  {
   "property": "C05",
   "status": "proved",
   "theorems": [
    "Bfdev.Fifo.fifo_is_bounded_queue",
    "Bfdev.Fifo.step_refines"
   ],
   "note": "byte-level model with wrapping 64-bit counters; all histories, refinement to a bounded queue"
  },
  {
   "property": "C06",
   "status": "partial",
   "theorems": [
    "Bfdev.Fifo.record_roundtrip_partial",
    "Bfdev.Fifo.record_order_violated",
    "Bfdev.Fifo.record_order_violated_witness",
    "Bfdev.Fifo.record_length_byte_order_violated",
    "Bfdev.Fifo.record_put_overread",
    "Bfdev.Fifo.peek_record_is_out",
    "Bfdev.Ringbuf.ringbuf_record_order_violated",
    "Bfdev.Ringbuf.record_room_partial",
    "Bfdev.Ringbuf.record_replaces_partial",
    "Bfdev.Ringbuf.ringbuf_record_roundtrip_partial"
   ],
   "note": "the code violates the property as soon as two records are queued (length stored at the read index) or more than one length byte is used; proved for one record at a time with one length byte; a ring buffer stores a record as the queue does while there is room, and a record that does not fit beside the only one held replaces it"
  },
  {
   "property": "C07",
   "status": "proved",
   "theorems": [
    "Bfdev.Ringbuf.ringbuf_keeps_newest",
    "Bfdev.Ringbuf.contents_suffix_of_stream",
    "Bfdev.Ringbuf.contents_newest_of_stream"
   ],
   "note": "flat ring buffer, all histories; record variant see C06"
  },
  {
   "property": "C08",
   "status": "partial",
   "theorems": [
    "Bfdev.Array.array_is_list_partial",
    "Bfdev.Array.array_push_violated"
   ],
   "note": "every history and every allocator-refusal pattern, for requests up to 2^63 bytes; beyond that the byte count wraps and the property is shown to fail"
  },
  {
   "property": "C09",
   "status": "proved",
   "theorems": [
    "Bfdev.Bsearch.bsearch_correct",
    "Bfdev.Bsearch.bsearch_memory_safe"
   ],
   "note": "every sorted array and key, out-of-bounds access is a distinct outcome and shown unreachable"
  },
  {
   "property": "C10",
   "status": "partial",
   "theorems": [
    "Bfdev.Sort.sort_correct_partial",
    "Bfdev.Sort.sort_violated"
   ],
   "note": "every array and every total preorder, total size below 2^63; element sizes that are a multiple of 2^32 bytes break the parent computation (size bit truncated to unsigned int), shown by a witness"
  },
  {
   "property": "C11",
   "status": "proved",
   "theorems": [
    "Bfdev.ListSort.list_sort_stable",
    "Bfdev.ListSort.stable_pairs"
   ],
   "note": "heap-level model with NULL as failure; all lists, all total preorders; counter wrap at 2^32 included"
  },
  {
   "property": "C12",
   "status": "proved",
   "theorems": [
    "Bfdev.Rbtree.insert_correct",
    "Bfdev.Rbtree.insert_node_correct",
    "Bfdev.Rbtree.height_bound",
    "Bfdev.Rbtree.history_correct",
    "Bfdev.Rbtree.replace_correct",
    "Bfdev.Rbtree.cached_insert_correct"
   ],
   "note": "pointer-level model with parent links, NULL dereference and non-termination as failures; all histories of insertions and deletions from the empty tree"
  },
  {
   "property": "C13",
   "status": "proved",
   "theorems": [
    "Bfdev.Rbtree.delete_correct",
    "Bfdev.Rbtree.history_correct",
    "Bfdev.Rbtree.cached_delete_correct"
   ],
   "note": "as C12"
  },
  {
   "property": "C14",
   "status": "proved",
   "theorems": [
    "Bfdev.Rbtree.find_correct",
    "Bfdev.Rbtree.findLast_correct",
    "Bfdev.Rbtree.parent_correct"
   ],
   "note": "every tree whose order fits the comparison"
  },
  {
   "property": "C15",
   "status": "proved",
   "theorems": [
    "Bfdev.Rbtree.next_visits",
    "Bfdev.Rbtree.prev_visits",
    "Bfdev.Rbtree.pre_visits",
    "Bfdev.Rbtree.post_visits",
    "Bfdev.Rbtree.orders_once"
   ],
   "note": "every tree of every shape; the level-order macros belong to the heap, see C16"
  },
  {
   "property": "C16",
   "status": "proved",
   "theorems": [
    "Bfdev.Heap.heap_histories",
    "Bfdev.Heap.heap_root",
    "Bfdev.Heap.heap_iteration",
    "Bfdev.Heap.heap_drain"
   ],
   "note": "Pointer-level model of heap.c/heap.h; for every comparison that is a total preorder and every history of insertions of new nodes and deletions of present ones, the memory holds a complete binary tree in heap order with exactly the right nodes; root is a minimum, iteration visits each node once, draining sorts."
  },
  {
   "property": "C17",
   "status": "proved",
   "theorems": [
    "Bfdev.Dlist.step_sound",
    "Bfdev.Dlist.list_histories",
    "Bfdev.Dlist.traversals",
    "Bfdev.Dlist.checks",
    "Bfdev.Dlist.drain_all",
    "Bfdev.Dlist.self_splice_breaks"
   ],
   "note": "heap of links, all histories of all list operations refined to operations on sequences; misuse (splicing a list into itself, replacing or swapping the only node) excluded"
  },
  {
   "property": "C18",
   "status": "partial",
   "theorems": [
    "Bfdev.Hlist.step_sound_partial",
    "Bfdev.Hlist.hlist_histories_partial",
    "Bfdev.Hlist.traversal",
    "Bfdev.Hlist.checks",
    "Bfdev.Hlist.next_add_violated",
    "Bfdev.Hlist.next_add_effect",
    "Bfdev.Hlist.prev_add_violated"
   ],
   "note": "every operation except next_add and prev_add, which the code gets wrong (concrete witnesses)"
  },
  {
   "property": "C19",
   "status": "proved",
   "theorems": [
    "Bfdev.Slist.step_sound",
    "Bfdev.Slist.slist_histories",
    "Bfdev.Slist.traversal",
    "Bfdev.Slist.checks",
    "Bfdev.Slist.del_absent_fails"
   ],
   "note": "heap-level model with NULL as failure; all histories over all disjoint lists"
  },
  {
   "property": "C20",
   "status": "proved",
   "theorems": [
    "Bfdev.Llist.llist_linearizable",
    "Bfdev.Llist.llist_conserves",
    "Bfdev.Llist.llist_batch_order",
    "Bfdev.Llist.llist_writes_own",
    "Bfdev.Llist.llist_solo",
    "Bfdev.Llist.llist_del_reuse_violated"
   ],
   "note": "all interleavings of any number of threads under sequential consistency; removal of single nodes included when nodes are not pushed twice (otherwise unsafe, witness given)"
  },
  {
   "property": "C21",
   "status": "partial",
   "theorems": [
    "Bfdev.Refcount.addnz_alone_partial",
    "Bfdev.Refcount.addnz_not_atomic",
    "Bfdev.Refcount.addnz_lost_violated",
    "Bfdev.Refcount.addnz_twice_violated",
    "Bfdev.Refcount.addnz_zero_violated",
    "Bfdev.Refcount.addnz_nothing_hangs"
   ],
   "note": "exact without interference; with interference the inverted loop condition loses or doubles the acquisition"
  },
  {
   "property": "C22",
   "status": "proved",
   "theorems": [
    "Bfdev.Hashmap.hashmap_calls",
    "Bfdev.Hashmap.hashmap_finite_map",
    "Bfdev.Hashmap.hashmap_iteration",
    "Bfdev.Hashmap.duplicate_order_not_kept"
   ],
   "note": "pointer level, on the chains of hlist.h; any callbacks agreeing with the keys, any growth policy, any allocator returning fresh blocks or NULL"
  },
  {
   "property": "C23",
   "status": "partial",
   "theorems": [
    "Bfdev.Bloom.bloom_no_false_negative",
    "Bfdev.Bloom.bloom_exact",
    "Bfdev.Bloom.push_reports",
    "Bfdev.Bloom.flush_partial",
    "Bfdev.Bloom.flush_violated",
    "Bfdev.Bloom.create_good",
    "Bfdev.Bloom.create_empty"
   ],
   "note": "no false negatives for all histories, keys and hash functions; the flush clears only the first eighth of the bits, so elements survive it"
  },
  {
   "property": "C24",
   "status": "partial",
   "theorems": [
    "Bfdev.Skiplist.skip_sound_partial",
    "Bfdev.Skiplist.find_result",
    "Bfdev.Skiplist.insert_result",
    "Bfdev.Skiplist.delete_result",
    "Bfdev.Skiplist.reset_result",
    "Bfdev.Skiplist.random_level",
    "Bfdev.Skiplist.refused_violated"
   ],
   "note": "Every history and every choice of levels, except insertions refused memory after drawing a level above all others: those leave an empty top level and the next search reads an uninitialised variable (witness proved)."
  },
  {
   "property": "C25",
   "status": "partial",
   "theorems": [
    "Bfdev.Ilist.ilist_histories_partial",
    "Bfdev.Ilist.ilist_additions",
    "Bfdev.Ilist.ilist_noTie",
    "Bfdev.Ilist.ilist_violated"
   ],
   "note": "all histories and comparators that do not delete the first of several equal nodes; that deletion loses the index entry of the whole group and later additions land in the wrong place"
  },
  {
   "property": "C26",
   "status": "proved",
   "theorems": [
    "Bfdev.Notifier.notifier_histories",
    "Bfdev.Notifier.call_round",
    "Bfdev.Notifier.round_shape",
    "Bfdev.Notifier.register_refuses"
   ],
   "note": "all histories and callback behaviours; callbacks do not touch the chain themselves"
  },
  {
   "property": "C27",
   "status": "partial",
   "theorems": [
    "Bfdev.Radix.find_partial",
    "Bfdev.Radix.find_present",
    "Bfdev.Radix.places_distinct",
    "Bfdev.Radix.alloc_result",
    "Bfdev.Radix.free_partial",
    "Bfdev.Radix.free_present",
    "Bfdev.Radix.nodes_released",
    "Bfdev.Radix.charge_partial",
    "Bfdev.Radix.charge_overflow",
    "Bfdev.Radix.elements_disjoint",
    "Bfdev.Radix.bounds_violated",
    "Bfdev.Radix.alias_violated",
    "Bfdev.Radix.free_alias_violated",
    "Bfdev.Radix.high_violated"
   ],
   "note": "Every history with elements below 2^63. Searching or freeing an absent element whose highest bit is the first one the tree has no room for reads out of bounds or hits another element, and elements at 2^63 and above overrun an array (witnesses proved)."
  },
  {
   "property": "C28",
   "status": "partial",
   "theorems": [
    "Bfdev.Btree.lookup_partial",
    "Bfdev.Btree.insert_partial",
    "Bfdev.Btree.remove_partial",
    "Bfdev.Btree.update_partial",
    "Bfdev.Btree.values",
    "Bfdev.Btree.remove_zero_violated",
    "Bfdev.Btree.remove_pointer_violated",
    "Bfdev.Btree.update_zero_violated",
    "Bfdev.Btree.update_null_violated",
    "Bfdev.Btree.odd_violated"
   ],
   "note": "Every history of insertions, removals, updates, steps and releases, every node capacity that is even and at least 4, and every allocator; balance is part of the invariant. Excluded: removing an absent key that is 0 or equal to a stored pointer (reads outside the node), updating the absent key 0, storing NULL by update, odd capacities (witnesses proved)."
  },
  {
   "property": "C29",
   "status": "partial",
   "theorems": [
    "Bfdev.Segtree.segtree_query_partial",
    "Bfdev.Segtree.segtree_history_partial",
    "Bfdev.Segtree.insert_maxed_partial",
    "Bfdev.Segtree.delete_maxed",
    "Bfdev.Segtree.segtree_query_violated"
   ],
   "note": "Queries are exact for every tree sorted by start whose nodes keep the greatest end of their subtree; deletion always keeps the maxima; insertion keeps them exactly if no interval below the new node ends after it; so queries are exact after every history of insertions of that kind and deletions. Missing: the other insertions, which the code gets wrong (witness: [10,90],[5,95],[7,93])."
  },
  {
   "property": "C30",
   "status": "partial",
   "theorems": [
    "Bfdev.Memalloc.pool_sound_partial",
    "Bfdev.Memalloc.others_kept",
    "Bfdev.Memalloc.alloc_result",
    "Bfdev.Memalloc.all_free",
    "Bfdev.Memalloc.first_fits",
    "Bfdev.Memalloc.best_fits",
    "Bfdev.Memalloc.worst_fits",
    "Bfdev.Memalloc.huge_violated",
    "Bfdev.Memalloc.align_violated"
   ],
   "note": "Every history and every search function that returns free chunks of sufficient size. Requests within 31 of 2^64 are rounded to zero and granted, and addresses have only the alignment 8 (witnesses proved)."
  },
  {
   "property": "C31",
   "status": "partial",
   "theorems": [
    "Bfdev.Allocpool.arena_disjoint_partial",
    "Bfdev.Allocpool.arena_aligned_partial",
    "Bfdev.Allocpool.arena_grants",
    "Bfdev.Allocpool.arena_violated"
   ],
   "note": "all histories of requests within the address space; a request whose end wraps past 2^64 is granted and overlaps earlier blocks"
  },
  {
   "property": "C32",
   "status": "partial",
   "theorems": [
    "Bfdev.Cache.cache_sound_partial",
    "Bfdev.Cache.referenced_kept",
    "Bfdev.Cache.obtain_result",
    "Bfdev.Cache.obtain_starving",
    "Bfdev.Cache.put_result",
    "Bfdev.Cache.remove_result",
    "Bfdev.Cache.reset_partial",
    "Bfdev.Cache.reset_violated",
    "Bfdev.Cache.stale_violated",
    "Bfdev.Cache.rename_violated"
   ],
   "note": "Every history of fewer than 2^64 operations without reset and without renaming to a resident tag; a cache reset while nothing is referenced behaves as a new one. Otherwise reset leaves reference counts and renaming does not look for duplicates (witnesses proved)."
  },
  {
   "property": "C33",
   "status": "partial",
   "theorems": [
    "Bfdev.Cache.lru_victim_partial",
    "Bfdev.Cache.lfu_victim_partial"
   ],
   "note": "For every history of fewer than 2^64 operations without a reset (after a reset of an unreferenced cache see C32) and without renaming to a resident tag; renaming an entry counts as a use."
  },
  {
   "property": "C34",
   "status": "partial",
   "theorems": [
    "Bfdev.Fsm.dispatch_total",
    "Bfdev.Fsm.handle_dispatch_partial",
    "Bfdev.Fsm.handle_cross",
    "Bfdev.Fsm.handle_nochange",
    "Bfdev.Fsm.handle_overflow",
    "Bfdev.Fsm.handle_no_target",
    "Bfdev.Fsm.handle_invalid",
    "Bfdev.Fsm.handle_returns",
    "Bfdev.Fsm.atomic_violated",
    "Bfdev.Fsm.nochange_violated",
    "Bfdev.Fsm.stack_atomic_violated",
    "Bfdev.Fsm.inherited_exit_violated",
    "Bfdev.Fsm.Whole.handle_iff",
    "Bfdev.Fsm.Whole.handle_some",
    "Bfdev.Fsm.Whole.handle_ends",
    "Bfdev.Fsm.Whole.delivers_state",
    "Bfdev.Fsm.Whole.delivers_unchanged_partial"
   ],
   "note": "Complete description of every event, crossing transitions included, as a refinement of an abstract machine in both directions (Whole). With crossing transitions a failing callback leaves an intermediate state, and a failing callback after a pop leaves the stack shortened (witnesses proved)."
  },
  {
   "property": "C35",
   "status": "partial",
   "theorems": [
    "Bfdev.Tokenbucket.tokenbucket_bound_partial",
    "Bfdev.Tokenbucket.tokenbucket_zero_violated",
    "Bfdev.Tokenbucket.tokenbucket_counted",
    "Bfdev.Tokenbucket.tokenbucket_off"
   ],
   "note": "all histories of requests and updates at positive times, including the 32-bit cut of the token count; a clock that starts at zero refills the bucket at every call"
  },
  {
   "property": "C36",
   "status": "proved",
   "theorems": [
    "Bfdev.Ratelimit.ratelimit_exact",
    "Bfdev.Ratelimit.windows_partition",
    "Bfdev.Ratelimit.answers_count",
    "Bfdev.Ratelimit.ratelimit_off",
    "Bfdev.Ratelimit.ratelimit_reset"
   ],
   "note": "exact answers for all histories whose times plus the interval are representable (otherwise the C addition overflows)"
  },
  {
   "property": "C37",
   "status": "partial",
   "theorems": [
    "Bfdev.Respool.pool_histories",
    "Bfdev.Respool.pool_init",
    "Bfdev.Respool.pool_empty",
    "Bfdev.Respool.pool_find",
    "Bfdev.Respool.release_all_partial",
    "Bfdev.Respool.release_all_violated"
   ],
   "note": "releasing everything calls every callback once but leaves every node in the pool"
  },
  {
   "property": "C38",
   "status": "partial",
   "theorems": [
    "Bfdev.Matrix.add_correct",
    "Bfdev.Matrix.sub_correct",
    "Bfdev.Matrix.mismatch_rejected",
    "Bfdev.Matrix.errors_harmless",
    "Bfdev.Matrix.mul_correct",
    "Bfdev.Matrix.mul_violated",
    "Bfdev.Matrix.set_correct",
    "Bfdev.Matrix.import_correct",
    "Bfdev.Matrix.trans_violated",
    "Bfdev.Matrix.trans_partial",
    "Bfdev.Matrix.data_violated",
    "Bfdev.Matrix.data_partial",
    "Bfdev.Matrix.data_refuses"
   ],
   "note": "addition, subtraction, scaling and multiplication exact; the transpose copies the wrong way round and the element accessor uses row * col"
  },
  {
   "property": "C39",
   "status": "partial",
   "theorems": [
    "Bfdev.Levenshtein.levenshtein_partial",
    "Bfdev.Levenshtein.levenshtein_empty",
    "Bfdev.Levenshtein.levenshtein_violated",
    "Bfdev.Levenshtein.levenshtein_stray"
   ],
   "note": "exact when the never-initialised cell of the second row happens not to matter; a witness shows that it can"
  },
  {
   "property": "C40",
   "status": "partial",
   "theorems": [
    "Bfdev.Mpi.add_correct_partial",
    "Bfdev.Mpi.sub_correct_partial",
    "Bfdev.Mpi.addi_correct_partial",
    "Bfdev.Mpi.subi_correct_partial",
    "Bfdev.Mpi.add_exact_iff",
    "Bfdev.Mpi.add_lost_carry_violated",
    "Bfdev.Mpi.add_lost_borrow_violated",
    "Bfdev.Mpi.add_alias_violated",
    "Bfdev.Mpi.addi_violated",
    "Bfdev.Mpi.addi_undefined",
    "Bfdev.Mpi.subi_undefined"
   ],
   "note": "Exact for all signs and lengths unless a carry or borrow arrives at a limb 2^64-1 of the second operand, the result is the second operand and its block has to grow, a word is added to a negative number below it, or a word is taken from zero; each of these is shown to fail."
  },
  {
   "property": "C41",
   "status": "partial",
   "theorems": [
    "Bfdev.Mpi.mul_correct_partial",
    "Bfdev.Mpi.square_correct_partial",
    "Bfdev.Mpi.muli_correct",
    "Bfdev.Mpi.mul_lost_carry_violated",
    "Bfdev.Mpi.mul_alias_violated",
    "Bfdev.Mpi.square_refused_violated"
   ],
   "note": "Exact for products by words and for operands of any length unless the shorter has a limb 1 above the lowest and the longer a limb 2^64-1, or the result is one of two operands of several limbs; failing witnesses are proved."
  },
  {
   "property": "C42",
   "status": "partial",
   "theorems": [
    "Bfdev.Mpi.div_correct_partial",
    "Bfdev.Mpi.divi_correct_partial",
    "Bfdev.Mpi.mod_correct_partial",
    "Bfdev.Mpi.modi_correct_partial",
    "Bfdev.Mpi.div_euclid",
    "Bfdev.Mpi.div_by_zero_partial",
    "Bfdev.Mpi.div_zero_violated",
    "Bfdev.Mpi.divi_zero_violated",
    "Bfdev.Mpi.div_unnormalised_violated",
    "Bfdev.Mpi.div_sign_violated",
    "Bfdev.Mpi.divi_refused_violated"
   ],
   "note": "Quotient rounded to zero and remainder, for every divisor of one limb and every divisor of more limbs with its top bit set and no limb 2^64-1 below the top; the code does not normalise divisors, accepts 0/0, and loses the sign of the remainder when dividing in place by a negative number."
  },
  {
   "property": "C43",
   "status": "partial",
   "theorems": [
    "Bfdev.Mpi.cmp_correct_partial",
    "Bfdev.Mpi.cmpi_correct_partial",
    "Bfdev.Mpi.cmp_violated"
   ],
   "note": "Exact for all objects that are not a zero with a minus sign; such zeros are produced by multiplication and compare below zero."
  },
  {
   "property": "C44",
   "status": "partial",
   "theorems": [
    "Bfdev.Dword.udiv_correct",
    "Bfdev.Dword.udiv_zero",
    "Bfdev.Dword.udivd_partial",
    "Bfdev.Dword.udivd_violated",
    "Bfdev.Dword.udivd_rem_unset",
    "Bfdev.Dword.dword_arith"
   ],
   "note": "division by one word is exact for all inputs; by two words outside the box n1 < d1, n0 >= d0 with the top bit of the divisor set, where the code answers 1 for 0; the high remainder word is never stored for one-word divisors"
  },
  {
   "property": "C45",
   "status": "partial",
   "theorems": [
    "Bfdev.Bitmap.bitmap_and",
    "Bfdev.Bitmap.bitmap_andnot",
    "Bfdev.Bitmap.bitmap_or",
    "Bfdev.Bitmap.bitmap_xor",
    "Bfdev.Bitmap.bitmap_complement",
    "Bfdev.Bitmap.bitmap_replace",
    "Bfdev.Bitmap.bitmap_equal_partial",
    "Bfdev.Bitmap.bitmap_equal_violated",
    "Bfdev.Bitmap.bitmap_or_equal_partial",
    "Bfdev.Bitmap.bitmap_or_equal_violated",
    "Bfdev.Bitmap.bitmap_intersects",
    "Bfdev.Bitmap.bitmap_empty",
    "Bfdev.Bitmap.bitmap_full",
    "Bfdev.Bitmap.bitmap_zero_fill_copy",
    "Bfdev.Bitmap.single_bits",
    "Bfdev.Bitmap.test_and_change"
   ],
   "note": "all sizes, aliasing of destination and source included, compile-time-constant paths included; the constant-size paths of equal and or_equal answer the opposite, proved for every input"
  },
  {
   "property": "C46",
   "status": "partial",
   "theorems": [
    "Bfdev.Bitmap.compShl_eq",
    "Bfdev.Bitmap.compShr_partial",
    "Bfdev.Bitmap.bitmap_shl",
    "Bfdev.Bitmap.bitmap_shr_partial",
    "Bfdev.Bitmap.shr_violated",
    "Bfdev.Bitmap.small_shift_undefined"
   ],
   "note": "left shift in full; right shift only for whole words, zero shifts and over-long shifts, the rest is wrong in the code"
  },
  {
   "property": "C47",
   "status": "partial",
   "theorems": [
    "Bfdev.Bitmap.bitmap_range_partial",
    "Bfdev.Bitmap.range_fails",
    "Bfdev.Bitmap.range_zero_fails",
    "Bfdev.Bitmap.bitmap_range_const",
    "Bfdev.Bitmap.bitmap_range_call"
   ],
   "note": "ranges that end at a word boundary and the constant paths; every other range is proved to run past the end of memory"
  },
  {
   "property": "C48",
   "status": "partial",
   "theorems": [
    "Bfdev.Bitmap.find_first_bit",
    "Bfdev.Bitmap.find_last_bit",
    "Bfdev.Bitmap.find_first_zero_partial",
    "Bfdev.Bitmap.find_last_zero_partial",
    "Bfdev.Bitmap.find_next_bit",
    "Bfdev.Bitmap.find_next_zero",
    "Bfdev.Bitmap.find_prev_bit",
    "Bfdev.Bitmap.find_prev_zero_partial",
    "Bfdev.Bitmap.find_next_and_bit",
    "Bfdev.Bitmap.find_prev_and_bit",
    "Bfdev.Bitmap.comp_searches",
    "Bfdev.Bitmap.find_zero_violated",
    "Bfdev.Bitmap.for_each_bit"
   ],
   "note": "all searches and iterations, both byte orders, sizes up to 2^32-64; the zero searches fail for a size of 64 known at compile time"
  },
  {
   "property": "C49",
   "status": "proved",
   "theorems": [
    "Bfdev.Popcount.popcount_correct",
    "Bfdev.Popcount.popparity_correct"
   ],
   "note": "constant-expression and table variants at 8/16/32/64 bits"
  },
  {
   "property": "C50",
   "status": "partial",
   "theorems": [
    "Bfdev.Bitrev.bitrev_dynamic_reverses",
    "Bfdev.Bitrev.bitrev_dynamic_involutive",
    "Bfdev.Bitrev.bitrev8_const_reverses",
    "Bfdev.Bitrev.bitrev16_const_reverses",
    "Bfdev.Bitrev.bitrev32_const_reverses_partial",
    "Bfdev.Bitrev.bitrev64_const_reverses_partial",
    "Bfdev.Bitrev.bitrev_variants_agree_partial",
    "Bfdev.Bitrev.bitrev_const_violated"
   ],
   "note": "the 32- and 64-bit constant variants are wrong exactly on words with bit 27 or 28 (43 or 44) set; everything else proved in full"
  },
  {
   "property": "C51",
   "status": "proved",
   "theorems": [
    "Bfdev.Bcd.bcd_roundtrip",
    "Bfdev.Bcd.bcd_roundtrip'",
    "Bfdev.Bcd.bin2bcd_correct",
    "Bfdev.Bcd.bcd2bin_correct",
    "Bfdev.Bcd.bcd_dynamic_rejects",
    "Bfdev.Bcd.bcd_variants_disagree_outside"
   ],
   "note": "variants agree on the valid domain; outside it they differ, recorded as a theorem"
  },
  {
   "property": "C52",
   "status": "proved",
   "theorems": [
    "Bfdev.Scan.scans_correct",
    "Bfdev.Scan.scans_zero",
    "Bfdev.Scan.zero_scans_correct",
    "Bfdev.Scan.ilog2_correct",
    "Bfdev.Scan.pow2_roundup_correct",
    "Bfdev.Scan.pow2_roundup_outside",
    "Bfdev.Scan.pow2_rounddown_correct",
    "Bfdev.Scan.pow2_check_correct"
   ],
   "note": "generic loops and compiler-backed variants; above 2^63 rounding up is shown to be undefined"
  },
  {
   "property": "C53",
   "status": "partial",
   "theorems": [
    "Bfdev.Textsearch.kmp_correct",
    "Bfdev.Textsearch.kmp_linear",
    "Bfdev.Textsearch.linear_delivers",
    "Bfdev.Textsearch.kmp_empty_violated"
   ],
   "note": "all texts split in blocks, non-empty patterns shorter than 2^30 and texts shorter than 2^32; the empty pattern reads outside the pattern"
  },
  {
   "property": "C54",
   "status": "partial",
   "theorems": [
    "Bfdev.Textsearch.sunday_partial",
    "Bfdev.Textsearch.sunday_reads_past_end",
    "Bfdev.Textsearch.sunday_255",
    "Bfdev.Textsearch.bm_partial",
    "Bfdev.Textsearch.bm_exact_partial",
    "Bfdev.Textsearch.bm_sound",
    "Bfdev.Textsearch.bm_violated",
    "Bfdev.Textsearch.bm_periodic_violated",
    "Bfdev.Textsearch.bm_255"
   ],
   "note": "Sunday exact given one readable byte after the block; Boyer-Moore exact for all texts if and only if its table of shifts skips no place that is still possible (for instance when the last character of the pattern is unique in it), otherwise a text in which it misses an occurrence is constructed; byte 255 is outside the tables of both"
  },
  {
   "property": "C55",
   "status": "partial",
   "theorems": [
    "Bfdev.Argv.count_correct",
    "Bfdev.Argv.split_partial",
    "Bfdev.Argv.split_violated",
    "Bfdev.Argv.split_total_partial",
    "Bfdev.Argv.words_unique",
    "Bfdev.Argv.words_exist"
   ],
   "note": "all strings of fewer than 2^29 - 1 words (beyond, proved to overrun: the 32-bit size of the pointer block wraps)"
  },
  {
   "property": "C56",
   "status": "partial",
   "theorems": [
    "Bfdev.Jhash.jhash_mix_bijective",
    "Bfdev.Jhash.jhash_final_bijective",
    "Bfdev.Jhash.jhash_blocks",
    "Bfdev.Jhash.jhash_empty",
    "Bfdev.Jhash.blocks_exist",
    "Bfdev.Jhash.hash32_range_partial",
    "Bfdev.Jhash.hash64_range_partial",
    "Bfdev.Jhash.hash_zero_bits_violated",
    "Bfdev.Jhash.hashv_injective"
   ],
   "note": "bijections in full, and the byte-string hash equals the block hash of the message; a width of zero bits shifts by the whole word, which is undefined"
  },
  {
   "property": "C57",
   "status": "proved",
   "theorems": [
    "Bfdev.Prandom.prandom_never_absorbing",
    "Bfdev.Prandom.prandom_init_never_absorbing",
    "Bfdev.Prandom.below_absorbs"
   ],
   "note": "all seeds and numbers of values; thresholds shown exact"
  },
  {
   "property": "C58",
   "status": "proved",
   "theorems": [
    "Bfdev.Arc4.arc4_textbook",
    "Bfdev.Arc4.arc4_decrypt",
    "Bfdev.Arc4.arc4_pieces",
    "Bfdev.Arc4.arc4_many",
    "Bfdev.Arc4.arc4_box_injective"
   ],
   "note": "all contexts, non-empty keys, messages and splits"
  },
  {
   "property": "C59",
   "status": "proved",
   "theorems": [
    "Bfdev.Digest.md5_correct",
    "Bfdev.Digest.sha1_correct",
    "Bfdev.Digest.sha224_correct",
    "Bfdev.Digest.sha256_correct",
    "Bfdev.Digest.sha2_constants",
    "Bfdev.Digest.digest_chunks"
   ],
   "note": "Whole functions including the transforms, compared with FIPS 180-4 and RFC 1321; chunks below 2^63 bytes (no larger object exists). The MD5 sine table is compared with the printed table."
  },
  {
   "property": "C60",
   "status": "partial",
   "theorems": [
    "Bfdev.Crc.crc_partial",
    "Bfdev.Crc.crc_plain",
    "Bfdev.Crc.crc_concat",
    "Bfdev.Crc.crc64_cut",
    "Bfdev.Crc.crc64_partial",
    "Bfdev.Crc.crc64_violated",
    "Bfdev.Crc.crc7_correct",
    "Bfdev.Crc.crc4_correct",
    "Bfdev.Crc.crc4_violated"
   ],
   "note": "all messages, addresses and initial values, including the generated tables; the 64-bit checksums lose half the register in the eight-byte loop, CRC-4 pads an incomplete last byte"
  },
  {
   "property": "C61",
   "status": "partial",
   "theorems": [
    "Bfdev.Circle.cnt_correct",
    "Bfdev.Circle.cnt_add_space",
    "Bfdev.Circle.cnt_end_correct",
    "Bfdev.Circle.space_end_partial",
    "Bfdev.Circle.space_end_violated"
   ],
   "note": "the space-to-end macro uses an undeclared name; the rest in full"
  },
  {
   "property": "C62",
   "status": "proved",
   "theorems": [
    "Bfdev.Errptr.roundtrip",
    "Bfdev.Errptr.isErr_errPtr",
    "Bfdev.Errptr.ordinary",
    "Bfdev.Errptr.code_of_error"
   ],
   "note": "all 32-bit codes and 64-bit pointers"
  },
  {
   "property": "C63",
   "status": "partial",
   "theorems": [
    "Bfdev.Bitfield.get_correct",
    "Bfdev.Bitfield.prep_inside",
    "Bfdev.Bitfield.get_prep",
    "Bfdev.Bitfield.max_correct",
    "Bfdev.Bitfield.fit_partial",
    "Bfdev.Bitfield.fit_violated"
   ],
   "note": "all contiguous masks and values at widths up to 64; the fit test is wrong for values whose upper bits are shifted out of the word"
  },
  {
   "property": "C64",
   "status": "proved",
   "theorems": [
    "Bfdev.Overflow.checks_correct",
    "Bfdev.Overflow.ops_correct",
    "Bfdev.Overflow.ops_cut_wide_operands"
   ],
   "note": "all types and operands of the type; compiler overflow builtins trusted"
  },
  {
   "property": "C65",
   "status": "partial",
   "theorems": [
    "Bfdev.Strdup.strdup_correct",
    "Bfdev.Strdup.strndup_partial",
    "Bfdev.Strdup.strndup_unterminated",
    "Bfdev.Strdup.strndup_overflow"
   ],
   "note": "the unbounded duplicate in full; the bounded one is right only for a bound of length + 1, every other bound is proved wrong"
  },
  {
   "property": "C66",
   "status": "proved",
   "theorems": [
    "Bfdev.Swab.swaps_correct",
    "Bfdev.Swab.unaligned_correct",
    "Bfdev.Swab.array_correct"
   ],
   "note": "all words, addresses and memories"
  },
  {
   "property": "C67",
   "status": "partial",
   "theorems": [
    "Bfdev.Scnprintf.scnprintf_partial",
    "Bfdev.Scnprintf.error_violated"
   ],
   "note": "successful formatting in full; a formatting error is reported as size - 1 characters"
  },
  {
   "property": "C68",
   "status": "partial",
   "theorems": [
    "Bfdev.Scan.nth_bit_partial",
    "Bfdev.Scan.nth_zero_partial",
    "Bfdev.Scan.nth_bit_violated"
   ],
   "note": "the all-ones shortcut of the n-th-bit searches is wrong; proved for every other word"
  },
  {
   "property": "C69",
   "status": "proved",
   "theorems": [
    "Bfdev.Scan.align_correct",
    "Bfdev.Scan.align_high_wraps",
    "Bfdev.Scan.masks_correct",
    "Bfdev.Scan.rotate_correct",
    "Bfdev.Scan.rotate_inverse"
   ],
   "note": "all widths, all shift counts"
  },
  {
   "property": "C70",
   "status": "partial",
   "theorems": [
    "Bfdev.Tokenbucket.tokenbucket_overdue_partial",
    "Bfdev.Tokenbucket.tokenbucket_idle_violated"
   ],
   "note": "the sum of held and owed tokens wraps at 2^32 and an overdue request is refused"
  },
  {
   "property": "C71",
   "status": "proved",
   "theorems": [
    "Bfdev.Prandom.prandom_full_period",
    "Bfdev.Prandom.prandom_state_period"
   ],
   "note": "matrix certificates checked in the kernel, all seeds and all step numbers"
  },
  {
   "property": "C72",
   "status": "proved",
   "theorems": [
    "Bfdev.Refcount.refs_freed_once"
   ],
   "note": "all interleavings of takes, puts and hand-overs by any number of threads"
  },
  {
   "property": "C73",
   "status": "partial",
   "theorems": [
    "Bfdev.Crc.burst_partial",
    "Bfdev.Crc.burst_plain64",
    "Bfdev.Crc.crc7_burst",
    "Bfdev.Crc.crc64_burst_violated"
   ],
   "note": "all messages; the 64-bit checksums only when built without the eight-byte loop"
  },
  {
   "property": "C74",
   "status": "partial",
   "theorems": [
    "Bfdev.Heap.heap_find_violated",
    "Bfdev.Heap.heap_find_partial",
    "Bfdev.Heap.heap_find_empty"
   ],
   "note": "bfdev_heap_find takes the depth from the count instead of the index: false for numbers above the last level (witness), proved for numbers on the last level."
  },
  {
   "property": "C75",
   "status": "proved",
   "theorems": [
    "Bfdev.Mpi.seti_correct",
    "Bfdev.Mpi.set_correct",
    "Bfdev.Mpi.import_correct"
   ],
   "note": "Result in normal form, other objects unchanged, nothing changed on refusal."
  },
  {
   "property": "C76",
   "status": "partial",
   "theorems": [
    "Bfdev.Fsm.reset_fresh",
    "Bfdev.Fsm.reset_prev_violated"
   ],
   "note": "Return values, current states and calls agree for every event sequence; the previous state is left over from before (witness proved)."
  },
  {
   "property": "C77",
   "status": "partial",
   "theorems": [
    "Bfdev.Memalloc.realloc_keeps",
    "Bfdev.Memalloc.shrink_partial",
    "Bfdev.Memalloc.shrink_violated"
   ],
   "note": "Contents are kept in every case; shrinking is refused when less than the new size is available elsewhere in the pool (witness proved)."
  },
  {
   "property": "C78",
   "status": "proved",
   "theorems": [
    "Bfdev.Memalloc.first_fit",
    "Bfdev.Memalloc.best_fit",
    "Bfdev.Memalloc.worst_fit",
    "Bfdev.Memalloc.refused",
    "Bfdev.Memalloc.first_finds",
    "Bfdev.Memalloc.best_finds",
    "Bfdev.Memalloc.worst_finds"
   ],
   "note": "For every reachable pool."
  },
  {
   "property": "C79",
   "status": "partial",
   "theorems": [
    "Bfdev.Radix.first_partial",
    "Bfdev.Radix.last_partial",
    "Bfdev.Radix.next_partial",
    "Bfdev.Radix.prev_partial",
    "Bfdev.Radix.index_partial",
    "Bfdev.Radix.first_violated",
    "Bfdev.Radix.next_violated",
    "Bfdev.Radix.prev_violated",
    "Bfdev.Radix.refused_violated",
    "Bfdev.Radix.index_violated"
   ],
   "note": "Pointers are right for every history without refused memory; the offset stored is right for steps inside 8192 bytes. Witnesses: first element missed when the first block is empty, wrong offset after a step across 8192 bytes, pointer behind the first leaf, abort after refused memory, index of elements whose size is no power of two."
  },
  {
   "property": "C80",
   "status": "partial",
   "theorems": [
    "Bfdev.Btree.first_result",
    "Bfdev.Btree.last_partial",
    "Bfdev.Btree.next_partial",
    "Bfdev.Btree.prev_partial",
    "Bfdev.Btree.walk_all",
    "Bfdev.Btree.release_all",
    "Bfdev.Btree.last_violated",
    "Bfdev.Btree.prev_zero_violated",
    "Bfdev.Btree.next_absent_violated"
   ],
   "note": "Same histories as C28. Excluded: last of an emptied tree, prev from key 0, next from an absent key (witnesses proved)."
  },
  {
   "property": "C81",
   "status": "partial",
   "theorems": [
    "Bfdev.Mpi.and_partial",
    "Bfdev.Mpi.or_partial",
    "Bfdev.Mpi.xor_partial",
    "Bfdev.Mpi.shli_partial",
    "Bfdev.Mpi.shri_partial",
    "Bfdev.Mpi.btesti_partial",
    "Bfdev.Mpi.bseti_partial",
    "Bfdev.Mpi.bclri_partial",
    "Bfdev.Mpi.data_import",
    "Bfdev.Mpi.shri_violated",
    "Bfdev.Mpi.shli_violated",
    "Bfdev.Mpi.bseti_violated"
   ],
   "note": "Every operand below 2^26 limbs and every distance and bit number below 2^32: the bitmap functions underneath take 32-bit counts. Beyond that the results are wrong (witnesses proved)."
  },
  {
   "property": "C82",
   "status": "proved",
   "theorems": [
    "Bfdev.Bitops.atomic_linearizable",
    "Bfdev.Bitops.atomic_final",
    "Bfdev.Bitops.test_set_exclusive",
    "Bfdev.Bitops.atomic_wait_free"
   ],
   "note": "Sequentially consistent memory; any schedule of any number of threads."
  },
  {
   "property": "C83",
   "status": "proved",
   "theorems": [
    "Bfdev.Bitops.le_bit",
    "Bfdev.Bitops.be_bit"
   ],
   "note": "All nine operations, both machine byte orders."
  },
  {
   "property": "C84",
   "status": "proved",
   "theorems": [
    "Bfdev.Hashtbl.table_histories",
    "Bfdev.Hashtbl.lookup_complete",
    "Bfdev.Hashtbl.check_iff"
   ],
   "note": "Tables of 2^b heads, 1 <= b <= 63, next to any other chains in memory."
  },
  {
   "property": "C85",
   "status": "partial",
   "theorems": [
    "Bfdev.Errname.errname_partial",
    "Bfdev.Errname.every_constant",
    "Bfdev.Errname.errname_violated"
   ],
   "note": "All int except INT_MIN, whose negation is undefined behaviour."
  },
  {
   "property": "C86",
   "status": "partial",
   "theorems": [
    "Bfdev.Textsearch.kmp_repeat",
    "Bfdev.Textsearch.greedy_covers",
    "Bfdev.Textsearch.sunday_single",
    "Bfdev.Textsearch.sunday_repeat_violated",
    "Bfdev.Textsearch.bm_repeat_violated",
    "Bfdev.Textsearch.sunday_blocks_violated",
    "Bfdev.Textsearch.bm_blocks_violated"
   ],
   "note": "Holds with KMP. Sunday and Boyer-Moore never move the offset, and keep a position across blocks."
  },
  {
   "property": "C87",
   "status": "proved",
   "theorems": [
    "Bfdev.Registry.registry_histories"
   ],
   "note": "Both registries, any number of algorithms, next to any other lists in memory; strings are compared as values."
  },
  {
   "property": "C88",
   "status": "partial",
   "theorems": [
    "Bfdev.Rounding.round_down_correct",
    "Bfdev.Rounding.round_up_correct",
    "Bfdev.Rounding.div_round_up_partial",
    "Bfdev.Rounding.div_round_up_violated",
    "Bfdev.Rounding.div_closest_unsigned_partial",
    "Bfdev.Rounding.div_closest_unsigned_violated",
    "Bfdev.Rounding.div_closest_signed_partial",
    "Bfdev.Rounding.div_closest_signed_violated",
    "Bfdev.Rounding.minmax_correct",
    "Bfdev.Rounding.halves_correct"
   ],
   "note": "The divisions are right exactly where their intermediate sum fits the type; both directions proved."
  },
  {
   "property": "C89",
   "status": "partial",
   "theorems": [
    "Bfdev.Ctype.dynamic_partial",
    "Bfdev.Ctype.dynamic_violated",
    "Bfdev.Ctype.const_partial",
    "Bfdev.Ctype.const_violated",
    "Bfdev.Ctype.const_letters_partial",
    "Bfdev.Ctype.const_letters_violated",
    "Bfdev.Ctype.case_correct",
    "Bfdev.Ctype.toascii_correct"
   ],
   "note": "Run-time tests: ASCII characters, with three wrong table entries. Compile-time tests: wrong for every character below the class. Case conversion with the C library tests of the C locale."
  },
  {
   "property": "C90",
   "status": "partial",
   "theorems": [
    "Bfdev.Log.log_partial",
    "Bfdev.Log.log_default",
    "Bfdev.Log.splits_exists",
    "Bfdev.Log.reset_lost",
    "Bfdev.Log.log_violated"
   ],
   "note": "Default levels above 8 read behind the level tables. The C library formatting is a parameter and succeeds."
  },
  {
   "property": "C91",
   "status": "proved",
   "theorems": [
    "Bfdev.Dlist.checked_histories",
    "Bfdev.Dlist.misuse_refused",
    "Bfdev.Slist.checked_histories",
    "Bfdev.Slist.misuse_refused",
    "Bfdev.Hlist.checked_histories",
    "Bfdev.Hlist.misuse_refused",
    "Bfdev.Rbtree.checked_histories",
    "Bfdev.Rbtree.misuse_refused",
    "Bfdev.Heap.checked_histories",
    "Bfdev.Heap.misuse_refused",
    "Bfdev.Ilist.checked_histories",
    "Bfdev.Ilist.misuse_refused",
    "Bfdev.Memalloc.checked_histories",
    "Bfdev.Memalloc.misuse_refused",
    "Bfdev.Dlist.only_misuse_refused",
    "Bfdev.Slist.only_misuse_refused",
    "Bfdev.Hlist.only_misuse_refused",
    "Bfdev.Rbtree.only_misuse_refused",
    "Bfdev.Heap.only_misuse_refused"
   ],
   "note": "Nodes are not at the poison addresses. Indexed lists: the histories of C25. The reports are not modelled."
  },
  {
   "property": "C92",
   "status": "proved",
   "theorems": [
    "Bfdev.Dlist.iteration",
    "Bfdev.Dlist.deleting_iteration",
    "Bfdev.Dlist.moving_iteration",
    "Bfdev.Slist.iteration",
    "Bfdev.Slist.deleting_iteration",
    "Bfdev.Hlist.iteration",
    "Bfdev.Hlist.deleting_iteration"
   ],
   "note": "The _entry forms are the same loops, cursors being represented by their links."
  },
  {
   "property": "C93",
   "status": "proved",
   "theorems": [
    "Bfdev.Titer.post_teardown",
    "Bfdev.Titer.post_from",
    "Bfdev.Titer.children_first",
    "Bfdev.Titer.postWalk_eq",
    "Bfdev.Titer.rb_teardown",
    "Bfdev.Titer.heap_teardown",
    "Bfdev.Titer.continue_null",
    "Bfdev.Heap.Post.post_safe",
    "Bfdev.Rbtree.Post.post_safe"
   ],
   "note": "Trees as reached by the histories of C12, C13 and C16."
  },
  {
   "property": "C94",
   "status": "partial",
   "theorems": [
    "Bfdev.Life.queue_partial",
    "Bfdev.Life.queue_free",
    "Bfdev.Life.queue_free_again",
    "Bfdev.Life.queue_violated",
    "Bfdev.Life.queue_huge_violated",
    "Bfdev.Life.bitmap_life",
    "Bfdev.Life.bitmap_free",
    "Bfdev.Life.bloom_partial",
    "Bfdev.Life.bloom_destroy",
    "Bfdev.Life.bloom_violated",
    "Bfdev.Life.search_partial",
    "Bfdev.Life.search_destroy",
    "Bfdev.Life.search_violated",
    "Bfdev.Life.cache_create",
    "Bfdev.Life.cache_destroy",
    "Bfdev.Life.free_bad"
   ],
   "note": "Caches and bitmaps: all sizes. Queues, ring buffers, searches and Bloom filters compute some sizes without a check, so huge requests are granted with too little memory. Structure sizes are parameters."
  },
  {
   "property": "C95",
   "status": "partial",
   "theorems": [
    "Bfdev.Bitmap.for_each_partial",
    "Bfdev.Bitmap.wanted_spec",
    "Bfdev.Bitmap.ahead_clr",
    "Bfdev.Bitmap.for_each_zero_violated"
   ],
   "note": "Missing: zero bits of a bitmap whose size is the constant 64, where nothing is visited; sizes above 2^32 - 64."
  },
  {
   "property": "C96",
   "status": "proved",
   "theorems": [
    "Bfdev.Atomic.atomic_linearizable",
    "Bfdev.Atomic.counter",
    "Bfdev.Atomic.tickets",
    "Bfdev.Atomic.handover",
    "Bfdev.Atomic.election",
    "Bfdev.Atomic.lock_free"
   ],
   "note": "Sequentially consistent memory. The plain read that starts an exchange counts as one access."
  },
  {
   "property": "C97",
   "status": "partial",
   "theorems": [
    "Bfdev.Front.front_partial",
    "Bfdev.Front.nothing_asked",
    "Bfdev.Front.front_violated",
    "Bfdev.Front.front_array_violated"
   ],
   "note": "Missing: tables that give some operations and leave out others, and products of array sizes that do not fit a word."
  },
  {
   "property": "C98",
   "status": "partial",
   "theorems": [
    "Bfdev.Once.once_partial",
    "Bfdev.Once.once_each",
    "Bfdev.Once.once_violated"
   ],
   "note": "At most once holds for threads that do not interfere; otherwise at most once per thread."
  },
  {
   "property": "C99",
   "status": "partial",
   "theorems": [
    "Bfdev.Strhash.pjw_partial",
    "Bfdev.Strhash.pjw_short",
    "Bfdev.Strhash.pjw_violated",
    "Bfdev.Strhash.strdiff_spec",
    "Bfdev.Strhash.memdiff_spec"
   ],
   "note": "Missing: the hash of texts that carry a bit out above bit 31 or have bytes above 127, whose hash is wider than promised."
  },
  {
   "property": "C100",
   "status": "partial",
   "theorems": [
    "Bfdev.Btree.iteration_partial",
    "Bfdev.Btree.removal_partial",
    "Bfdev.Btree.reverse_violated"
   ],
   "note": "Missing: iterating towards larger keys over a tree with key 0 or over one that was emptied; continuing towards smaller keys after a key that is not in the tree; removing values the find callback refuses to give up. The _from_safe macros do not compile; modelled is what they mean."
  },
  {
   "property": "C101",
   "status": "partial",
   "theorems": [
    "Bfdev.Hashmap.removal_partial",
    "Bfdev.Hashmap.removal_violated"
   ],
   "note": "Missing: deletions after which the map makes itself smaller; the rebuilt buckets make the loop miss entries. Keys are unique (deletion is by key)."
  },
  {
   "property": "C102",
   "status": "proved",
   "theorems": [
    "Bfdev.Ilist.ilist_iteration",
    "Bfdev.Ilist.ilist_teardown"
   ],
   "note": "Any comparison callback, consistent or not; the order of the list is the subject of C25."
  },
  {
   "property": "C103",
   "status": "partial",
   "theorems": [
    "Bfdev.Skiplist.skiplist_iteration_partial",
    "Bfdev.Skiplist.duplicate_violated"
   ],
   "note": "Missing: deleting by key while several nodes have that key; the node freed can be the one the loop goes to next."
  },
  {
   "property": "C104",
   "status": "partial",
   "theorems": [
    "Bfdev.Radix.radix_iteration_partial",
    "Bfdev.Radix.walk_violated",
    "Bfdev.Radix.start_violated",
    "Bfdev.Radix.prev_violated"
   ],
   "note": "Missing: walks over more than 8192 bytes, walks from a tree whose first block is empty, walks down to a lowest element above 255, element sizes that are no power of two, and histories in which memory was refused. bfdev_radix_for_each_continue_safe does not compile; modelled is what it means."
  },
  {
   "property": "C105",
   "status": "partial",
   "theorems": [
    "Bfdev.Augment.augmented_summaries_partial",
    "Bfdev.Augment.max_root",
    "Bfdev.Augment.total_count",
    "Bfdev.Augment.total_greatest",
    "Bfdev.Augment.insert_augmented_violated"
   ],
   "note": "Missing: bfdev_rb_insert_augmented itself, which never updates the summaries above the new node; proved is the insertion in which the caller links the node, computes its summary, propagates it and then has the tree rebalanced."
  },
  {
   "property": "C106",
   "status": "partial",
   "theorems": [
    "Bfdev.Byteorder.byteorder_partial",
    "Bfdev.Byteorder.generic_little",
    "Bfdev.Byteorder.generic_violated"
   ],
   "note": "Missing: big-endian machines as built, since the generic header takes the little-endian header everywhere; proved with the header that matches the machine. There are no big-endian array conversions although byteorder.h names them."
  },
  {
   "property": "C107",
   "status": "partial",
   "theorems": [
    "Bfdev.Bsearch.any_answers",
    "Bfdev.Bsearch.countSearch_plain",
    "Bfdev.Sort.any_answers_partial",
    "Bfdev.Sort.countSort_plain",
    "Bfdev.Sort.sort_violated",
    "Bfdev.ListSort.any_answers",
    "Bfdev.ListSort.countSort_plain",
    "Bfdev.Rbtree.find_any_answers",
    "Bfdev.Rbtree.insert_any_answers",
    "Bfdev.Rbtree.history_any_answers",
    "Bfdev.Rbtree.countInsert_plain"
   ],
   "note": "Missing: the array sort with element sizes that are a multiple of 2^32 bytes, where it leaves the array (C10)."
  },
  {
   "property": "C108",
   "status": "proved",
   "theorems": [
    "Bfdev.Spsc.two_threads_one_queue",
    "Bfdev.Spsc.nothing_lost",
    "Bfdev.Spsc.no_byte_shared",
    "Bfdev.Spsc.writer_never_waits",
    "Bfdev.Spsc.reader_never_waits"
   ],
   "note": "Sequentially consistent memory, accesses in source order: the code has neither barriers nor atomic accesses, so a compiler or a machine that reorders them is outside the model."
  },
  {
   "property": "C109",
   "status": "proved",
   "theorems": [
    "Bfdev.Rbtree.cached_history",
    "Bfdev.Rbtree.drain_sorted"
   ],
   "note": "A node may be replaced by one that belongs at the same place of the order."
  },
  {
   "property": "C110",
   "status": "proved",
   "theorems": [
    "Bfdev.Heap.insert_any_answers",
    "Bfdev.Heap.delete_any_answers",
    "Bfdev.Heap.history_any_answers",
    "Bfdev.Heap.askInsert_plain",
    "Bfdev.Heap.askDelete_plain"
   ],
   "note": "Fewer than 2^64 nodes. `ask*_plain` ties the model with an oracle to the model of C16."
  },
  {
   "property": "C111",
   "status": "partial",
   "theorems": [
    "Bfdev.Skiplist.history_any_answers",
    "Bfdev.Skiplist.find_any_answers",
    "Bfdev.Skiplist.insert_any_answers",
    "Bfdev.Skiplist.delete_any_answers",
    "Bfdev.Skiplist.askFind_plain",
    "Bfdev.Skiplist.askInsert_plain",
    "Bfdev.Skiplist.askDelete_plain"
   ],
   "note": "Missing: insertions refused memory after drawing a level above all others, which break the list (C24). `ask*_plain` ties the model with an oracle to that of C24."
  },
  {
   "property": "C112",
   "status": "proved",
   "theorems": [
    "Bfdev.Ilist.ilist_any_answers",
    "Bfdev.Ilist.ilist_any_step",
    "Bfdev.Ilist.askAdd_plain"
   ],
   "note": "Sharing this with C25: there the order is the subject, and it is violated by deleting the first of several equal nodes; here it is shown that such a deletion never costs a node or a link. The head itself is neither added nor deleted. `askAdd_plain` ties the model with an oracle to that of C25."
  },
  {
   "property": "C113",
   "status": "partial",
   "theorems": [
    "Bfdev.Align.check_correct",
    "Bfdev.Align.low_correct_partial",
    "Bfdev.Align.low_violated",
    "Bfdev.Align.high_correct_partial",
    "Bfdev.Align.high_violated",
    "Bfdev.Align.high_overflow_violated",
    "Bfdev.Align.pointer_correct_partial",
    "Bfdev.Align.pointer_violated",
    "Bfdev.Align.low_adj_partial",
    "Bfdev.Align.high_adj_partial"
   ],
   "note": "The code violates it: with an alignment of type `unsigned int` and a 64-bit value or pointer the complement of the mask has no upper half, and the upper half of the value is cleared. The guards of the partial theorems are exact, except that a negative value whose common type with the alignment is unsigned is left out (C converts it first). C69 has both operands of 64 bits."
  },
  {
   "property": "C114",
   "status": "partial",
   "theorems": [
    "Bfdev.Skiplist.memory_exact_partial",
    "Bfdev.Skiplist.memory_calls_partial",
    "Bfdev.Skiplist.memory_destroy_partial",
    "Bfdev.Skiplist.memory_create",
    "Bfdev.Skiplist.memDemo_run"
   ],
   "note": "Missing: histories in which an insertion is refused memory after it drew a level above all others; the level count is then already raised, which the code never undoes (C24)."
  },
  {
   "property": "C115",
   "status": "partial",
   "theorems": [
    "Bfdev.Refcount.add_reported_partial",
    "Bfdev.Refcount.add_overflow_violated",
    "Bfdev.Refcount.sub_reported",
    "Bfdev.Refcount.addnz_reported_partial",
    "Bfdev.Refcount.addnz_report_violated",
    "Bfdev.Refcount.addnz_overflow_violated",
    "Bfdev.Refcount.refs_not_reported",
    "Bfdev.Refcount.messages_distinct"
   ],
   "note": "The code violates it: a conditional acquisition that finds the counter at zero, its very purpose, is reported as an overflow; real overflows are tested by a signed sum that is itself undefined. Conditional acquisitions that others interfere with are excluded, they are wrong already (C21)."
  },
  {
   "property": "C116",
   "status": "proved",
   "theorems": [
    "Bfdev.Hashmap.any_calls",
    "Bfdev.Hashmap.any_iteration",
    "Bfdev.Hashmap.any_memory",
    "Bfdev.Hashmap.any_release",
    "Bfdev.Hashmap.ask_plain",
    "Bfdev.Hashmap.wild_demo"
   ],
   "note": "Nothing is asked of the callbacks except that they return; the inserted node must not be in use and blocks must not overlap what is in use. Fewer than 2^64 - 1 nodes."
  },
  {
   "property": "C117",
   "status": "partial",
   "theorems": [
    "Bfdev.Array.Mem.arrays_memory_partial",
    "Bfdev.Array.Mem.refused_harmless_partial",
    "Bfdev.Array.Mem.growth_partial",
    "Bfdev.Array.Mem.overflow_violated",
    "Bfdev.Array.Mem.grow_agrees",
    "Bfdev.Array.Mem.shrink_agrees",
    "Bfdev.Array.Mem.pop_reports",
    "Bfdev.Array.Mem.ex_run"
   ],
   "note": "Requests of at most 2^63 bytes. Beyond that the size can wrap to zero, which frees the block while the array keeps pointing to it, so that releasing it is a double free (overflow_violated). Matrices and big integers are covered through the array calls they make."
  },
  {
   "property": "C118",
   "status": "partial",
   "theorems": [
    "Bfdev.Notifier.Reenter.reentrant_round_partial",
    "Bfdev.Notifier.Reenter.self_removal_behaves",
    "Bfdev.Notifier.Reenter.round_calls",
    "Bfdev.Notifier.Reenter.round_sorted",
    "Bfdev.Notifier.Reenter.calls_registered",
    "Bfdev.Notifier.Reenter.moments_round",
    "Bfdev.Notifier.Reenter.call_plain",
    "Bfdev.Notifier.Reenter.next_unregistered_violated",
    "Bfdev.Notifier.Nest.nested_round_partial",
    "Bfdev.Notifier.Nest.nested_sorted",
    "Bfdev.Notifier.Nest.nested_calls",
    "Bfdev.Notifier.Nest.call_plain",
    "Bfdev.Notifier.Nest.nested_endless"
   ],
   "note": "A callback may not unregister the node behind it: that node is called although it is gone, and again and again until the limit on calls is reached (next_unregistered_violated). Rounds may nest to any depth (Nest); nothing bounds the depth, so a callback that always starts another round is called without end (nested_endless)."
  },
  {
   "property": "C119",
   "status": "proved",
   "theorems": [
    "Bfdev.Textsearch.search_linear",
    "Bfdev.Textsearch.prepare_linear",
    "Bfdev.Textsearch.find_plain",
    "Bfdev.Textsearch.prepare_plain"
   ],
   "note": "The counted functions are those of C53 with a counter; find_plain and prepare_plain show that the counter changes nothing."
  },
  {
   "property": "C120",
   "status": "partial",
   "theorems": [
    "Bfdev.Mpi.History.call_proper_partial",
    "Bfdev.Mpi.History.program_proper_partial",
    "Bfdev.Mpi.History.fresh_proper",
    "Bfdev.Mpi.History.improper_violated"
   ],
   "note": "Setting a bit whose number is 2^32 or more leaves leading zero limbs (improper_violated); all other calls keep every object proper, also where C40, C41, C42 or C81 show that the number itself is wrong."
  },
  {
   "property": "C121",
   "status": "proved",
   "theorems": [
    "Bfdev.Mpi.Digits.build_correct",
    "Bfdev.Mpi.Digits.takeApart_correct",
    "Bfdev.Mpi.Digits.digits_roundtrip"
   ],
   "note": "The number read so far is not negative (adding to negative numbers is C41) and the allocator must serve the remainder when it divides (C42 shows what a refusal does there)."
  },
  {
   "property": "C122",
   "status": "partial",
   "theorems": [
    "Bfdev.Radix.Height.height_needed_partial",
    "Bfdev.Radix.Height.nodes_needed_partial",
    "Bfdev.Radix.Height.empty_one_node_partial",
    "Bfdev.Radix.Height.height_violated"
   ],
   "note": "An allocation for which memory runs out half way leaves the levels it had added, with nothing in them (height_violated); the bounds hold as long as memory is never refused."
  },
  {
   "property": "C123",
   "status": "proved",
   "theorems": [
    "Bfdev.Rbtree.Rotate.few_rotations",
    "Bfdev.Rbtree.Rotate.run_links",
    "Bfdev.Rbtree.Rotate.runAll_links"
   ],
   "note": "The calls are noted by callbacks that do nothing else; `run_links` shows that the tree is the same with any callbacks. Examples reach both bounds."
  },
  {
   "property": "C124",
   "status": "proved",
   "theorems": [
    "Bfdev.Rbtree.Amortized.constant_rounds",
    "Bfdev.Rbtree.Amortized.runIn_run"
   ],
   "note": "A call with a bound on its rounds has no result if it needs one more; `runIn_run` shows that with a large bound it is the call of the other red-black properties. The example shows that the bound bites."
  },
  {
   "property": "C125",
   "status": "proved",
   "theorems": [
    "Bfdev.Time.compare_order",
    "Bfdev.Time.add_sub",
    "Bfdev.Time.deadline"
   ],
   "note": ""
  },
  {
   "property": "C126",
   "status": "proved",
   "theorems": [
    "Bfdev.Hashmap.Load.resize_amortised",
    "Bfdev.Hashmap.Load.load",
    "Bfdev.Hashmap.Load.memory"
   ],
   "note": "The cost of an exchange is old buckets + new buckets + entries, as read off the loops of hashmap_rehash; an exchange shows in the address of the table. The example also shows that a map with fewer than four entries gets a new table of the same size with every deletion."
  },
  {
   "property": "C127",
   "status": "partial",
   "theorems": [
    "Bfdev.Prandom.seeds_differ_partial",
    "Bfdev.Prandom.seeds_differ_violated",
    "Bfdev.Prandom.same_results_iff"
   ],
   "note": "False: a seed is reduced to 32 bits, of which the lowest does not matter, so that for instance bit 32 of a seed has no effect. Proved: exactly which seeds, and which states, give the same results."
  },
  {
   "property": "C128",
   "status": "proved",
   "theorems": [
    "Bfdev.Prandom.draws"
   ],
   "note": "For a long of 64 bits."
  },
  {
   "property": "C129",
   "status": "partial",
   "theorems": [
    "Bfdev.Levenshtein.Metric.zero_iff",
    "Bfdev.Levenshtein.Metric.symmetric",
    "Bfdev.Levenshtein.Metric.lengths",
    "Bfdev.Levenshtein.Metric.triangle_partial",
    "Bfdev.Levenshtein.Metric.triangle_violated"
   ],
   "note": "The triangle inequality is false for swaps cheaper than two substitutions and than an addition with a deletion, as a concrete triple shows, and proved otherwise. As in C39, answers that depend on the never-initialised cell are left out."
  },
  {
   "property": "C130",
   "status": "partial",
   "theorems": [
    "Bfdev.Crc.two_bits_partial"
   ],
   "note": "For all checksums but CRC-4 and the 64-bit ones: the shipped loop of the latter does not compute a checksum, see C60."
  },
  {
   "property": "C131",
   "status": "partial",
   "theorems": [
    "Bfdev.Crc.odd_bits_partial",
    "Bfdev.Crc.odd_bits_violated"
   ],
   "note": "Proved for CRC-8, CRC-16, CRC-CCITT and CRC-ITU-T. False for CRC-7, CRC-T10-DIF and CRC-32, with three, eleven and fifteen flipped bits."
  },
  {
   "property": "C132",
   "status": "proved",
   "theorems": [
    "Bfdev.Action.actions"
   ],
   "note": "Functions may change the action and call it again."
  },
  {
   "property": "C133",
   "status": "proved",
   "theorems": [
    "Bfdev.Digest.md5_collision",
    "Bfdev.Digest.sha1_collision",
    "Bfdev.Digest.sha256_collision",
    "Bfdev.Digest.sha224_collision"
   ],
   "note": "Messages of 2^61 bytes and more, whose length in bits does not fit the length field, are left out."
  },
  {
   "property": "C134",
   "status": "proved",
   "theorems": [
    "Bfdev.Cache.lru_holds_recent",
    "Bfdev.Cache.lru_inclusion",
    "Bfdev.Cache.lru_misses",
    "Bfdev.Cache.lru_misses_mono"
   ],
   "note": "The capacity is the size asked for rounded up to a power of two. Histories that keep several entries at once are C32 and C33."
  },
  {
   "property": "C135",
   "status": "proved",
   "theorems": [
    "Bfdev.Cache.lru_competitive",
    "Bfdev.Cache.lru_competitive_same"
   ],
   "note": "Entries are obtained, committed and given back one at a time, as in C134."
  },
  {
   "property": "C136",
   "status": "proved",
   "theorems": [
    "Bfdev.Ratelimit.ratelimit_stretch",
    "Bfdev.Ratelimit.ratelimit_sliding"
   ],
   "note": "Times in the stretch are not negative, and no time plus the interval overflows."
  },
  {
   "property": "C137",
   "status": "proved",
   "theorems": [
    "Bfdev.Base64.base64_pieces",
    "Bfdev.Base64.base64_pieces_only",
    "Bfdev.Base32.base32_pieces",
    "Bfdev.Base32.base32_pieces_only"
   ],
   "note": ""
  },
  {
   "property": "C138",
   "status": "proved",
   "theorems": [
    "Bfdev.Matrix.product_assoc",
    "Bfdev.Matrix.product_add",
    "Bfdev.Matrix.add_laws"
   ],
   "note": "Memory is granted; the transposition is wrong (C38) and has no laws."
  },
  {
   "property": "C139",
   "status": "proved",
   "theorems": [
    "Bfdev.Bloom.bloom_news",
    "Bfdev.Bloom.bloom_full"
   ],
   "note": "Histories without a flush, as the flush leaves most bits set (C23)."
  },
  {
   "property": "C140",
   "status": "proved",
   "theorems": [
    "Bfdev.Arc4.arc4_same_stream",
    "Bfdev.Arc4.arc4_equal_keys",
    "Bfdev.Arc4.arc4_key_twice",
    "Bfdev.Arc4.arc4_key_long",
    "Bfdev.Arc4.arc4_no_merge"
   ],
   "note": ""
  }
 ]
}