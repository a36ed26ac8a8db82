{"id": "C01", "title": "Base64 round trip", "statement": "For every byte string, decoding the text produced by the Base64 encoder reports success and yields the original byte string, and the encoder writes exactly the number of characters announced by the length helper.", "quantifier": "all byte strings of any length", "why_tests_cant": "the input space is unbounded; the tail handling depends on length mod 3 and every byte value interacts with four output symbols", "anchors": ["src/crypto/base64.c: bfdev_base64_encode, bfdev_base64_decode", "include/bfdev/base64.h"]}
{"id": "C02", "title": "Base32 round trip", "statement": "For every byte string, decoding the text produced by the Base32 encoder reports success and yields the original byte string, and the encoder writes exactly the announced number of characters.", "quantifier": "all byte strings of any length", "why_tests_cant": "unbounded inputs, five different tail shapes", "anchors": ["src/crypto/base32.c: bfdev_base32_encode, bfdev_base32_decode", "include/bfdev/base32.h"]}
{"id": "C03", "title": "Ascii85 round trip", "statement": "For every byte string, decoding the text produced by the Ascii85 encoder reports success and yields the original bytes (followed only by zero padding up to a multiple of four).", "quantifier": "all byte strings of any length", "why_tests_cant": "all-zero groups use a one-character shorthand whose position in the text is data dependent; a sampled test hits the shorthand only by luck", "anchors": ["src/crypto/ascii85.c: bfdev_ascii85_encode, bfdev_ascii85_decode"]}
{"id": "C04", "title": "Base64/Base32 decoders reject foreign symbols", "statement": "A decoder returns success only when every symbol consumed before padding belongs to its alphabet, and returns the invalid-argument error otherwise; on success the output is the unique byte string whose encoding agrees with the consumed text up to unused trailing bits.", "quantifier": "all input texts", "why_tests_cant": "all texts, including those never produced by the encoder", "anchors": ["src/crypto/base64.c: bfdev_base64_decode", "src/crypto/base32.c: base32_decode_table"]}
{"id": "C05", "title": "FIFO is a bounded queue", "statement": "For every sequence of puts, gets, peeks, bulk in, bulk out, bulk peek, reset and homing on a power-of-two sized fifo, the values returned and the counts reported equal those of an abstract first-in first-out queue of that capacity, including after the free-running counters wrap around.", "quantifier": "all operation histories, all element values, all power-of-two sizes, all starting counter values", "why_tests_cant": "counter wrap-around needs 2^64 operations to reach; histories are unbounded", "anchors": ["src/fifo.c: fifo_in_copy, fifo_out_copy, bfdev_fifo_in_flat, bfdev_fifo_out_flat, bfdev_fifo_peek_flat", "include/bfdev/fifo.h: bfdev_fifo_put, bfdev_fifo_get, bfdev_fifo_len"]}
{"id": "C06", "title": "Record FIFO preserves message boundaries", "statement": "Reading a record fifo returns the records in the order and with exactly the contents with which they were written.", "quantifier": "all sequences of record writes and reads", "why_tests_cant": "depends on the position of the read index relative to the write index over unbounded histories", "anchors": ["src/fifo.c: fifo_record_poke, fifo_record_peek, bfdev_fifo_in_record, bfdev_fifo_out_record"]}
{"id": "C07", "title": "Ring buffer keeps the newest data", "statement": "Writing to a full ring buffer discards the oldest bytes: after any sequence of writes the readable contents are a suffix of everything written (no longer than the capacity), and reads consume it in order.", "quantifier": "all histories of writes and reads on a power-of-two ring buffer", "why_tests_cant": "unbounded histories and counter wrap-around", "anchors": ["src/ringbuf.c: bfdev_ringbuf_in_flat, bfdev_ringbuf_out_flat, ringbuf_in_copy"]}
{"id": "C08", "title": "Dynamic array behaves as a list", "statement": "For every sequence of push, append, pop, peek, resize, reserve and release, with any pattern of allocator failures, the contents seen through the array equal those of a list; a failed operation reports failure and leaves the contents unchanged.", "quantifier": "all operation histories and all allocator failure schedules", "why_tests_cant": "failure schedule times history is unbounded", "anchors": ["src/array.c: bfdev_array_push, bfdev_array_pop, bfdev_array_peek, bfdev_array_reserve, bfdev_array_resize"]}
{"id": "C09", "title": "Binary search is sound and complete", "statement": "On an array sorted consistently with the comparison callback, binary search returns an element comparing equal to the key whenever one exists and reports absence otherwise, and never touches an element outside the array.", "quantifier": "all sorted arrays, keys and comparison functions", "why_tests_cant": "unbounded array sizes and arbitrary comparators", "anchors": ["include/bfdev/bsearch.h: bfdev_bsearch"]}
{"id": "C10", "title": "In-place sort yields a sorted permutation", "statement": "For every array and every total preorder, the array sort leaves the elements in ascending order and the multiset of elements unchanged, without touching memory outside the array.", "quantifier": "all arrays of any length and element size, all total preorders", "why_tests_cant": "unbounded sizes; heap index arithmetic differs for each length", "anchors": ["src/sort.c: bfdev_sort"]}
{"id": "C11", "title": "List sort is a stable sort", "statement": "For every list and total preorder the list sort leaves a sorted permutation of the nodes in which nodes comparing equal keep their original relative order, and restores the back links.", "quantifier": "all lists of any length, all total preorders", "why_tests_cant": "unbounded lengths; merge schedule depends on the bit pattern of the length", "anchors": ["src/list-sort.c: bfdev_list_sort, list_merge, list_finish"]}
{"id": "C12", "title": "Red-black insertion keeps order and balance", "statement": "Inserting a node at the position found by the search keeps the in-order sequence equal to the old one with the new node inserted at its place, keeps the red-black colouring rules, and hence keeps the height at most twice the logarithm of the size.", "quantifier": "all insertion histories", "why_tests_cant": "unbounded trees; rebalancing cases occur at any depth", "anchors": ["src/rbtree.c: bfdev_rb_fixup_augmented", "include/bfdev/rbtree.h: bfdev_rb_insert, bfdev_rb_find_last"]}
{"id": "C13", "title": "Red-black deletion keeps order and balance", "statement": "Deleting a node removes exactly that node from the in-order sequence and keeps the red-black colouring rules.", "quantifier": "all trees reachable by insertions and deletions and all nodes in them", "why_tests_cant": "unbounded trees; four mirrored rebalancing cases that cascade to the root", "anchors": ["src/rbtree.c: bfdev_rb_remove_augmented, bfdev_rb_erase_augmented"]}
{"id": "C14", "title": "Red-black lookup is sound and complete", "statement": "In an ordered tree a lookup returns a node comparing equal to the key iff one exists.", "quantifier": "all ordered trees and keys", "why_tests_cant": "unbounded trees", "anchors": ["src/rbtree.c: bfdev_rb_find, bfdev_rb_find_last, bfdev_rb_parent"]}
{"id": "C15", "title": "Tree iteration visits every node once in order", "statement": "First/next visits exactly the nodes of the tree once each in in-order (and last/prev in the reverse order); pre- and post-order walks likewise.", "quantifier": "all trees of any shape", "why_tests_cant": "unbounded trees; uses parent pointers to climb", "anchors": ["include/bfdev/titer.h: BFDEV_TITER_INORDER_DEFINE, BFDEV_TITER_PREORDER_DEFINE, BFDEV_TITER_POSTORDER_DEFINE"]}
{"id": "C16", "title": "Priority heap keeps the minimum at the root", "statement": "After any sequence of insertions and deletions of arbitrary nodes the root compares no greater than every other node and the multiset of nodes is exactly what was inserted minus what was deleted.", "quantifier": "all operation histories", "why_tests_cant": "unbounded histories; position of insertion follows the bits of the count", "anchors": ["src/heap.c: bfdev_heap_fixup, bfdev_heap_erase, bfdev_heap_remove", "include/bfdev/heap.h: bfdev_heap_insert"]}
{"id": "C17", "title": "Doubly linked list operations are sequence operations", "statement": "Add, add-before, delete, replace, move, swap, splice on circular lists act on the sequence of nodes exactly as the corresponding list operation, keeping forward and backward links mutually inverse.", "quantifier": "all lists, all positions, including adjacent nodes and empty lists", "why_tests_cant": "unbounded lists and aliasing patterns", "anchors": ["include/bfdev/list.h: bfdev_list_add, bfdev_list_del, bfdev_list_replace, bfdev_list_swap, bfdev_list_splice"]}
{"id": "C18", "title": "Hash-chain list operations are sequence operations", "statement": "Head-add, add-after, add-before and delete on a hash chain act on the sequence of nodes as the corresponding list operation, and keep every back reference pointing at the link that refers to the node.", "quantifier": "all chains and all positions", "why_tests_cant": "unbounded chains; a broken back reference is only visible after a later deletion", "anchors": ["include/bfdev/hlist.h: bfdev_hlist_head_add, bfdev_hlist_next_add, bfdev_hlist_prev_add, bfdev_hlist_del"]}
{"id": "C19", "title": "Singly linked list operations are sequence operations", "statement": "Add-after, delete and replace on a singly linked list act on the sequence of nodes as the corresponding list operation.", "quantifier": "all lists and positions", "why_tests_cant": "unbounded lists", "anchors": ["include/bfdev/slist.h: bfdev_slist_add, bfdev_slist_del, bfdev_slist_replace"]}
{"id": "C20", "title": "Lock-free list loses and duplicates nothing", "statement": "Under every interleaving of any number of threads pushing batches and grabbing the whole list, each pushed node is returned by exactly one grab (or is still in the list), and each batch keeps its internal order.", "quantifier": "all interleavings of any number of threads and operations", "why_tests_cant": "the interleaving space is unbounded and the race windows are a few instructions wide", "anchors": ["src/llist.c: bfdev_llist_split, bfdev_llist_del", "include/bfdev/llist.h: bfdev_llist_add"]}
{"id": "C21", "title": "Conditional reference acquisition is atomic", "statement": "Under every interleaving, acquiring references with 'add unless zero' either observes zero and changes nothing, or increases the count by exactly the amount requested.", "quantifier": "all interleavings of concurrent operations on one counter", "why_tests_cant": "requires a particular interference between read and compare-and-swap", "anchors": ["include/bfdev/refcount.h: bfdev_refcnt_fetch_addnz_test", "include/bfdev/asm-generic/cmpxchg.h: bfdev_arch_try_cmpxchg"]}
{"id": "C22", "title": "Hash map behaves as a finite map", "statement": "For every sequence of add, set, update, append, delete and find, with any allocation failures and any hash function, results are those of a collection of entries keyed by the user's equality, a finite map as long as no duplicate is appended (where duplicates were appended, any of them may be the one found); failing calls change nothing; iteration visits every entry exactly once; growing and shrinking never loses or duplicates entries.", "quantifier": "all histories, all hash functions, all allocator failure schedules", "why_tests_cant": "unbounded histories; rehash points depend on the history", "anchors": ["src/hashmap.c: bfdev_hashmap_insert, bfdev_hashmap_del, bfdev_hashmap_find, hashmap_rehash"]}
{"id": "C23", "title": "Bloom filter has no false negatives", "statement": "After any sequence of pushes since the last flush, checking a pushed element answers present; after a flush every element answers absent.", "quantifier": "all histories and all hash functions", "why_tests_cant": "arbitrary hash functions and histories", "anchors": ["src/bloom.c: bfdev_bloom_push, bfdev_bloom_peek, bfdev_bloom_flush"]}
{"id": "C24", "title": "Skip list behaves as an ordered multiset", "statement": "For every history of insertions and deletions and every choice of random levels, every level is an ordered sub-sequence of the one below, and search finds a key iff it is present.", "quantifier": "all histories, all random level choices and allocator failures", "why_tests_cant": "random levels: astronomically many shapes", "anchors": ["src/skiplist.c: bfdev_skiplist_insert, bfdev_skiplist_delete, bfdev_skiplist_find"]}
{"id": "C25", "title": "Indexed list stays sorted", "statement": "After any sequence of additions and deletions, the node sequence of an indexed list is sorted by the comparison callback and contains exactly the nodes added and not deleted.", "quantifier": "all histories, all comparators", "why_tests_cant": "a violation needs a particular order of add, delete, add among equal keys", "anchors": ["src/ilist.c: bfdev_ilist_add, bfdev_ilist_del"]}
{"id": "C26", "title": "Notifier chain order and call discipline", "statement": "Callbacks run in ascending priority, at most the requested number of them, a callback asking to stop ends the round, a callback asking for removal is unregistered and no other entry is affected.", "quantifier": "all registration histories, all callback behaviours", "why_tests_cant": "unbounded chains and callback behaviours", "anchors": ["src/notifier.c: bfdev_notifier_register, bfdev_notifier_call"]}
{"id": "C27", "title": "Radix tree is a sparse array", "statement": "An element allocated at an index is found at that index and only there; freeing it makes it absent; other indices are unaffected.", "quantifier": "all indices (64-bit) and all histories", "why_tests_cant": "2^64 indices; tree depth depends on the largest index used", "anchors": ["src/radix.c: bfdev_radix_root_alloc, bfdev_radix_root_find, bfdev_radix_root_free"]}
{"id": "C28", "title": "B-tree behaves as an ordered map", "statement": "For every sequence of insertions, removals and lookups, lookup returns the value last inserted and not removed under the key.", "quantifier": "all histories and keys", "why_tests_cant": "unbounded histories; splits and merges cascade", "anchors": ["src/btree.c: bfdev_btree_insert, bfdev_btree_remove, bfdev_btree_lookup"]}
{"id": "C29", "title": "Interval tree queries are exact", "statement": "First-overlap search returns an interval overlapping the query iff one is stored, and iteration enumerates precisely the overlapping intervals.", "quantifier": "all histories of interval insertion/removal and all queries", "why_tests_cant": "the search prunes by a cached maximum that must be maintained through every rotation", "anchors": ["src/segtree.c"]}
{"id": "C30", "title": "Pool allocator hands out disjoint blocks", "statement": "For every history of alloc, free and realloc under each fit policy, live blocks are pairwise disjoint, lie inside the pool, are at least as large as requested and aligned; freeing everything makes the whole pool available again.", "quantifier": "all histories, sizes and fit policies", "why_tests_cant": "fragmentation states are unbounded", "anchors": ["src/memalloc.c: bfdev_memalloc_alloc, bfdev_memalloc_free, bfdev_memalloc_realloc"]}
{"id": "C31", "title": "Arena allocator hands out disjoint aligned blocks", "statement": "Every block returned by the arena is aligned as requested, lies inside the arena and is disjoint from every other live block.", "quantifier": "all histories of alloc/free, all sizes and alignments", "why_tests_cant": "sizes near the word limit and alignment corner cases", "anchors": ["src/allocpool.c: bfdev_allocpool_alloc, bfdev_allocpool_free"]}
{"id": "C32", "title": "Cache residency bookkeeping", "statement": "For every history of obtain, put, delete, commit and reset, no two resident entries carry the same tag, an entry with outstanding references is never evicted or reassigned, and the numbers of free, used and pending entries add up to the capacity.", "quantifier": "all histories and all hash and comparison functions", "why_tests_cant": "unbounded histories with outstanding references", "anchors": ["src/cache/cache.c: bfdev_cache_obtain, bfdev_cache_put, bfdev_cache_committed, bfdev_cache_del"]}
{"id": "C33", "title": "LRU and LFU victim choice", "statement": "The least-recently-used policy always evicts the unreferenced entry released longest ago; the least-frequently-used policy evicts an unreferenced entry with the lowest hit count.", "quantifier": "all histories", "why_tests_cant": "unbounded histories", "anchors": ["src/cache/lru.c", "src/cache/lfu.c"]}
{"id": "C34", "title": "State machine dispatch is deterministic and atomic", "statement": "Handling an event performs the first matching transition of the current state or, failing that, of its nearest ancestor; callbacks run in the order guard, exit, action, entry; if a callback fails the current state is unchanged.", "quantifier": "all state graphs, events and callback outcomes", "why_tests_cant": "arbitrary user graphs and callback failures", "anchors": ["src/fsm.c: bfdev_fsm_handle, fsm_transition"]}
{"id": "C35", "title": "Token bucket never exceeds capacity or rate", "statement": "Over every history of refills and requests at monotonically increasing times, the number of tokens granted in a window never exceeds the burst capacity plus the refill owed for elapsed intervals.", "quantifier": "all arrival histories", "why_tests_cant": "unbounded histories and counter truncation", "anchors": ["src/tokenbucket.c: bfdev_tokenbucket", "src/ratelimit.c: bfdev_ratelimit"]}
{"id": "C36", "title": "Rate limiter admits at most burst per interval", "statement": "In every window of the limiter at most 'burst' calls are admitted and every refused call is counted as missed.", "quantifier": "all arrival histories whose times plus the interval are representable", "why_tests_cant": "unbounded histories", "anchors": ["src/ratelimit.c: bfdev_ratelimit"]}
{"id": "C37", "title": "Resource pool releases each resource once", "statement": "Resources are found most-recently-inserted first; releasing one calls its release callback exactly once and removes it; releasing all leaves the pool empty with every callback called exactly once.", "quantifier": "all histories", "why_tests_cant": "unbounded histories", "anchors": ["src/respool.c: bfdev_respool_release_all"]}
{"id": "C38", "title": "Matrix operations are the algebraic ones", "statement": "Addition, subtraction, multiplication and transposition compute the algebraic results over the ring of machine words, also when destination and operands are the same matrix; dimension mismatch is rejected without modification.", "quantifier": "all dimensions and entries", "why_tests_cant": "unbounded dimensions, aliasing", "anchors": ["src/matrix.c: GENERIC_MATRIX_ADDSUB, bfdev_matrix_mul, bfdev_matrix_trans, bfdev_matrix_data"]}
{"id": "C39", "title": "Edit distance is optimal", "statement": "The edit distance function returns the least total cost over all edit scripts made of insertions, deletions, substitutions and adjacent swaps.", "quantifier": "all pairs of strings and all cost parameters", "why_tests_cant": "optimality quantifies over all edit scripts", "anchors": ["src/levenshtein.c: bfdev_levenshtein"]}
{"id": "C40", "title": "Multi-precision addition and subtraction are exact", "statement": "The sum and difference of two big integers denote the sum and difference of the integers they denote.", "quantifier": "all magnitudes, signs and aliasing of operands", "why_tests_cant": "carry chains of unbounded length", "anchors": ["src/mpi.c: bfdev_mpi_add, bfdev_mpi_sub, bfdev_mpi_addi, bfdev_mpi_subi, mpa_add, mpa_sub"]}
{"id": "C41", "title": "Multi-precision multiplication is exact", "statement": "The product of two big integers denotes the product of the integers they denote.", "quantifier": "all magnitudes, signs, aliasing", "why_tests_cant": "unbounded lengths", "anchors": ["src/mpi.c: bfdev_mpi_mul, bfdev_mpi_muli, mpa_mul, mpa_maci"]}
{"id": "C42", "title": "Multi-precision division is Euclidean", "statement": "Division yields quotient and remainder q, r with a = q*b + r and |r| < |b|; division by zero is rejected.", "quantifier": "all dividends and divisors", "why_tests_cant": "unbounded lengths; quotient digit correction is rare", "anchors": ["src/mpi.c: bfdev_mpi_div, bfdev_mpi_divi, bfdev_mpi_mod, mpa_divrem"]}
{"id": "C43", "title": "Multi-precision comparison is the integer order", "statement": "Comparing two big integers gives the order of the integers they denote.", "quantifier": "all pairs", "why_tests_cant": "unbounded lengths", "anchors": ["src/mpi.c: bfdev_mpi_cmp, bfdev_mpi_cmpi"]}
{"id": "C44", "title": "Double-word division is exact", "statement": "The two-by-one word division returns the exact quotient and remainder for every dividend and nonzero divisor.", "quantifier": "all 128-bit dividends and divisors", "why_tests_cant": "2^192 inputs", "anchors": ["src/dword.c: bfdev_dword_generic_udiv, bfdev_dword_generic_udivd", "include/bfdev/asm-generic/dword.h"]}
{"id": "C45", "title": "Bitmap logic is bitwise on the first n bits", "statement": "And, or, xor, and-not, complement, replace, equality, intersection and subset tests agree with the pointwise definition on the first n bits for every n.", "quantifier": "all bitmaps and all bit counts", "why_tests_cant": "partial last word for every residue of the length", "anchors": ["src/bitmap.c: bfdev_bitmap_comp_and, bfdev_bitmap_comp_equal, bfdev_bitmap_comp_complement", "include/bfdev/bitmap.h"]}
{"id": "C46", "title": "Bitmap shifts move bits by the given distance", "statement": "A left (right) shift by k moves bit i to bit i+k (i-k) and fills with zeros.", "quantifier": "all bitmaps, lengths and distances", "why_tests_cant": "all residues of distance and length modulo the word size", "anchors": ["src/bitmap.c: bfdev_bitmap_comp_shl, bfdev_bitmap_comp_shr"]}
{"id": "C47", "title": "Bitmap range set and clear", "statement": "Setting (clearing) a range changes exactly the bits in the range.", "quantifier": "all bitmaps, starts and lengths", "why_tests_cant": "all residues", "anchors": ["src/bitmap.c: bfdev_bitmap_comp_set, bfdev_bitmap_comp_clr"]}
{"id": "C48", "title": "Bit searches return the extreme matching position", "statement": "Find-first/next/last/prev over one, two or complemented bitmaps return the least (greatest) matching position within bounds, or the limit if there is none.", "quantifier": "all bitmaps, bounds and starts", "why_tests_cant": "unbounded bitmaps", "anchors": ["src/bitwalk.c: bfdev_comp_find_first_bit, ...", "include/bfdev/bitwalk.h"]}
{"id": "C49", "title": "Population count and parity", "statement": "Every population count variant returns the number of one bits and every parity variant its lowest bit.", "quantifier": "all 8/16/32/64-bit words", "why_tests_cant": "2^64 inputs", "anchors": ["src/popcount.c", "include/bfdev/popcount.h"]}
{"id": "C50", "title": "Bit reversal is an involution that mirrors positions", "statement": "Bit reversal of a w-bit word moves bit i to bit w-1-i in every variant.", "quantifier": "all words, all variants", "why_tests_cant": "2^64 inputs", "anchors": ["src/bitrev.c", "include/bfdev/bitrev.h"]}
{"id": "C51", "title": "BCD conversions are mutually inverse", "statement": "Converting 0..99 to packed decimal and back is the identity, and the table and constant variants agree.", "quantifier": "all byte values", "why_tests_cant": "only exhaustive checking settles a table", "anchors": ["src/bcd.c", "include/bfdev/bcd.h"]}
{"id": "C52", "title": "Bit scans and power-of-two helpers", "statement": "Find-first-set, find-last-set, leading/trailing zero counts, integer logarithm and power-of-two rounding satisfy their arithmetic definitions.", "quantifier": "all 64-bit words", "why_tests_cant": "2^64 inputs", "anchors": ["include/bfdev/asm-generic/bitops.h", "include/bfdev/log2.h", "include/bfdev/align.h"]}
{"id": "C53", "title": "Linear/KMP text search is exact", "statement": "Over a text delivered in arbitrary blocks, the first search returns the position of the first occurrence of the pattern, or none iff there is none.", "quantifier": "all patterns, texts and block partitions", "why_tests_cant": "unbounded texts; overlapping self-similar patterns", "anchors": ["src/textsearch/kmp.c: kmp_find, kmp_prepare", "src/textsearch/textsearch.c"]}
{"id": "C54", "title": "Sunday and Boyer-Moore text search are exact", "statement": "On a single block the Sunday and Boyer-Moore searches return the first occurrence, reading only inside the text.", "quantifier": "all patterns and texts", "why_tests_cant": "shift tables for arbitrary alphabets", "anchors": ["src/textsearch/sunday.c", "src/textsearch/bm.c"]}
{"id": "C55", "title": "Argument splitting", "statement": "Splitting a command line yields exactly the maximal runs of non-blank characters in order, and the count helper agrees.", "quantifier": "all strings", "why_tests_cant": "unbounded inputs", "anchors": ["src/argv.c: bfdev_argv_split, argv_count"]}
{"id": "C56", "title": "Hash mixing loses no information", "statement": "The three-word mixing and the final mixing of the Jenkins hash are bijections, and hash functions with a bit width return values below two to that width.", "quantifier": "all word triples", "why_tests_cant": "2^96 inputs", "anchors": ["include/bfdev/jhash.h", "src/jhash.c", "include/bfdev/hash.h"]}
{"id": "C57", "title": "Pseudo random generator never degenerates", "statement": "From every seed, no component of the generator ever reaches an absorbing (all-zero) state.", "quantifier": "all seeds and all numbers of steps", "why_tests_cant": "unbounded number of steps", "anchors": ["src/prandom.c: bfdev_prandom_value, bfdev_prandom_seed"]}
{"id": "C58", "title": "ARC4 streams compose and decrypt", "statement": "Encrypting with a key and decrypting with a fresh context of the same key is the identity; processing a message in pieces equals processing it at once; the output is the textbook RC4 key stream.", "quantifier": "all keys, messages and splits", "why_tests_cant": "unbounded messages and splits", "anchors": ["src/crypto/arc4.c: bfdev_arc4_trans, bfdev_arc4_setkey"]}
{"id": "C59", "title": "Digest of a stream is independent of chunking", "statement": "For MD5, SHA-1 and SHA-2 the digest depends only on the concatenation of the updates, and equals folding the compression function over the standard padded message.", "quantifier": "all messages and all partitions into updates", "why_tests_cant": "unbounded messages; buffer boundary cases at every offset", "anchors": ["include/bfdev/crypto/md5-base.h", "include/bfdev/crypto/sha1-base.h", "include/bfdev/crypto/sha2-base.h"]}
{"id": "C60", "title": "CRCs equal their bit-serial definition", "statement": "Table-driven and slice-by-eight CRCs compute the polynomial remainder defined bit by bit, for every width, alignment and length, and compose over concatenation.", "quantifier": "all messages, initial values, alignments", "why_tests_cant": "unbounded messages; the eight-byte path is taken only for long aligned data", "anchors": ["include/bfdev/crypto/crc-inline.h: BFDEV_CRC_INLINE", "scripts/gen-crc.c: table_generic", "include/bfdev/crypto/crc4-inline.h"]}
{"id": "C61", "title": "Circular buffer macros", "statement": "Count and space always add up to size-1, count-to-end and space-to-end never cross the end of the buffer.", "quantifier": "all power-of-two sizes and index pairs", "why_tests_cant": "all index pairs", "anchors": ["include/bfdev/circle.h"]}
{"id": "C62", "title": "Error pointers round trip", "statement": "Every error code from -MAX to -1 survives encoding into a pointer and back and is recognised as an error, and no ordinary pointer is.", "quantifier": "all error codes and pointers", "why_tests_cant": "2^64 pointers", "anchors": ["include/bfdev/errptr.h"]}
{"id": "C63", "title": "Bit field accessors", "statement": "For every contiguous nonzero mask, extracting a prepared field gives back the value whenever it fits, and preparing never touches bits outside the mask.", "quantifier": "all masks and values", "why_tests_cant": "2^128 inputs", "anchors": ["include/bfdev/bitfield.h"]}
{"id": "C64", "title": "Saturating arithmetic", "statement": "Overflow-checked operations return the exact result when it is representable and the saturation value otherwise.", "quantifier": "all operand pairs", "why_tests_cant": "2^128 inputs", "anchors": ["include/bfdev/overflow.h"]}
{"id": "C65", "title": "String duplication", "statement": "Duplicating at most n characters yields a NUL-terminated copy of the first min(n, length) characters without writing outside the allocated block.", "quantifier": "all strings and n", "why_tests_cant": "memory error invisible to output-based tests", "anchors": ["src/libc/strdup.c: bfdev_strdup, bfdev_strndup"]}
{"id": "C66", "title": "Unaligned and byte-swapped access", "statement": "Storing a word with a given byte order and loading it with the same order returns it; loading with the opposite order returns the byte-swapped word.", "quantifier": "all words", "why_tests_cant": "2^64 inputs", "anchors": ["include/bfdev/asm-generic/unaligned.h", "include/bfdev/swab.h"]}
{"id": "C67", "title": "Bounded formatting never reports more than it wrote", "statement": "The bounded formatter returns the number of characters stored excluding the terminator, which is less than the buffer size.", "quantifier": "all formatted lengths and buffer sizes", "why_tests_cant": "all lengths, including formatter errors", "anchors": ["src/scnprintf.c: bfdev_vscnprintf"]}
{"id": "C68", "title": "N-th set and n-th zero bit search", "statement": "The search for the set (zero) bit of a given rank from below or above returns exactly that bit's position, and the word width when there are not that many.", "quantifier": "all words and all ranks", "why_tests_cant": "2^64 words times the rank; the shortcut for the all-ones word is one input among 2^64", "anchors": ["include/bfdev/asm-generic/bitops.h: bfdev_arch_ffnsp, bfdev_arch_flnsp, bfdev_arch_ffnzp, bfdev_arch_flnzp"]}
{"id": "C69", "title": "Masks, alignment and rotation", "statement": "Low, high and range masks contain exactly the announced bits; align checks, align-down and align-up compute divisibility and the nearest multiples, as far as representable, for power-of-two alignments; rotations move bit i to i+s modulo the width and rotating back restores the word.", "quantifier": "all words, all widths, all mask bounds and shift counts", "why_tests_cant": "the shift counts 0 and the word width are the boundary cases of a 2^64 space", "anchors": ["include/bfdev/bits.h: BFDEV_BIT_LOW_MASK, BFDEV_BIT_HIGH_MASK, BFDEV_BIT_RANGE", "include/bfdev/align.h: bfdev_align_check, bfdev_align_low, bfdev_align_high", "include/bfdev/asm-generic/bitops.h: bfdev_arch_rol32, bfdev_arch_ror32"]}
{"id": "C70", "title": "An overdue token is granted", "statement": "A request made at least one refill interval after the last refill instant of a bucket of positive capacity is granted.", "quantifier": "all bucket states and times", "why_tests_cant": "the failing idle times are of the order of 2^32 intervals", "anchors": ["src/tokenbucket.c: bfdev_tokenbucket"]}
{"id": "C71", "title": "Pseudo random generator has full period", "statement": "From every seed, each of the four components of the generator returns to an earlier value exactly after multiples of 2^31-1, 2^29-1, 2^28-1 and 2^25-1 results, so the whole state recurs only after their least common multiple.", "quantifier": "all seeds and all numbers of steps", "why_tests_cant": "the period is about 2^113 steps", "anchors": ["src/prandom.c: bfdev_prandom_value, bfdev_prandom_seed", "include/bfdev/prandom.h: BFDEV_TAUSWORTHE"]}
{"id": "C72", "title": "Plain references free exactly once", "statement": "Starting from one reference, in every interleaving of takes, puts and hand-overs in which only holders of a reference act, the counter equals the number of references held and exactly one put reports that the last reference is gone, namely the one that leaves none.", "quantifier": "all interleavings of any number of threads and operations", "why_tests_cant": "depends on the order of concurrent atomic operations", "anchors": ["include/bfdev/refcount.h: bfdev_refcnt_fetch_add, bfdev_refcnt_fetch_sub_test, BFDEV_REFCNT_INIT"]}
{"id": "C73", "title": "Checksums detect every burst no longer than their width", "statement": "Two messages of equal length that differ only within a window of at most as many bits as the checksum has get different checksums, for every message length, initial value and alignment.", "quantifier": "all messages, windows, initial values and alignments", "why_tests_cant": "unbounded messages and 2^width patterns per window", "anchors": ["include/bfdev/crypto/crc-inline.h: BFDEV_CRC_INLINE", "scripts/CMakeLists.txt: generate_crctbl"]}
{"id": "C74", "title": "Heap node lookup by number", "statement": "Looking up number k in a heap of n nodes, 1 <= k <= n, returns the k-th node in level order.", "quantifier": "all heaps and all numbers", "why_tests_cant": "the descent follows the bits of the number from a depth computed elsewhere; small heaps and the last level hide a wrong depth", "anchors": ["src/heap.c: bfdev_heap_find"]}
{"id": "C75", "title": "Big integers take the value they are assigned", "statement": "Assigning a machine word, another big integer, or an array of limbs with a sign gives the object exactly that value in normal form, leaves every other object alone, and on missing memory reports it and changes nothing.", "quantifier": "all values, limb arrays with any leading zeros, objects, aliasing and allocator outcomes", "why_tests_cant": "unbounded lengths", "anchors": ["src/mpi.c: bfdev_mpi_seti, bfdev_mpi_set, bfdev_mpi_import, mpi_relocation"]}
{"id": "C76", "title": "A reset state machine behaves as a new one", "statement": "After a reset to a state, a machine handles every sequence of events like one newly initialised with that state and the same error state: the same return values, current states and callbacks in the same order; the previous state is unset.", "quantifier": "all machines, histories before the reset, event sequences and callback outcomes", "why_tests_cant": "what is left over from before the reset may show only after further events", "anchors": ["include/bfdev/fsm.h: bfdev_fsm_reset, BFDEV_FSM_INIT", "src/fsm.c: bfdev_fsm_handle"]}
{"id": "C77", "title": "Resizing a pool block", "statement": "Resizing a block of the memory pool keeps its first bytes, up to the smaller of the two sizes; a refused resize changes nothing, and shrinking is never refused.", "quantifier": "all histories, pools, fit policies, blocks and sizes", "why_tests_cant": "whether the block is grown in place, merged with its neighbour or moved depends on the fragmentation state", "anchors": ["src/memalloc.c: bfdev_memalloc_realloc"]}
{"id": "C78", "title": "Fit policies of the memory pool", "statement": "First fit takes the first free chunk that is large enough, best fit a smallest one and worst fit a largest one; a request of at least one byte is refused only if no contiguous gap between the live blocks can hold it with its header.", "quantifier": "all histories, pools and sizes", "why_tests_cant": "fragmentation states are unbounded and coalescing must be complete in all of them", "anchors": ["src/memalloc.c: bfdev_memalloc_first_fit, bfdev_memalloc_best_fit, bfdev_memalloc_worst_fit, bfdev_memalloc_alloc, bfdev_memalloc_free"]}
{"id": "C79", "title": "Radix tree iteration", "statement": "first, last, next and prev visit exactly the allocated elements in the order of their indices and report the index of each.", "quantifier": "all histories and sets of indices", "why_tests_cant": "whether a step is right depends on the digits of both indices and on which blocks were emptied before", "anchors": ["src/radix.c: bfdev_radix_root_first, bfdev_radix_root_last, bfdev_radix_root_next, bfdev_radix_root_prev", "include/bfdev/radix.h: bfdev_radix_index, bfdev_radix_offset"]}
{"id": "C80", "title": "B-tree iteration and release", "statement": "first, last, next and prev and the iteration macro visit exactly the elements in the tree, once each, from the largest key to the smallest (prev: the other way); release hands every value to the user once and gives back every block.", "quantifier": "all histories, keys and allocator outcomes", "why_tests_cant": "where an element is in the tree depends on all earlier splits and merges", "anchors": ["src/btree.c: bfdev_btree_first, bfdev_btree_last, bfdev_btree_next, bfdev_btree_prev, bfdev_btree_release", "include/bfdev/btree.h: bfdev_btree_for_each"]}
{"id": "C81", "title": "Bit operations on big integers", "statement": "and, or and xor of two big integers combine the binary digits of their magnitudes; a left shift multiplies by a power of two, a right shift divides by it, rounding towards zero; testing, setting and clearing bit i concerns exactly bit i of the magnitude; results are in normal form, also when the result is an operand, and the limbs handed out can be imported again.", "quantifier": "all magnitudes, distances, bit numbers, aliasing, allocator outcomes and contents of new memory", "why_tests_cant": "unbounded lengths; leftovers in new memory show only for some lengths", "anchors": ["src/mpi.c: bfdev_mpi_and, bfdev_mpi_or, bfdev_mpi_xor, bfdev_mpi_shli, bfdev_mpi_shri, bfdev_mpi_btesti, bfdev_mpi_bseti, bfdev_mpi_bclri, bfdev_mpi_data"]}
{"id": "C82", "title": "Atomic bit operations lose no update", "statement": "In every interleaving of any number of threads calling the atomic single-bit operations, the calls behave as if executed one after another, each at one moment within its duration: each test reports the bit as the calls before left it, and a call changes no other bit. Of several test-and-sets of a clear bit exactly one finds it clear. Every call ends after a bounded number of its own steps.", "quantifier": "all interleavings, bit numbers and initial memories", "why_tests_cant": "depends on the order of concurrent atomic operations", "anchors": ["include/bfdev/asm-generic/bitops.h: bfdev_arch_bit_atomic_set, bfdev_arch_bit_atomic_test_set, bfdev_arch_bit_atomic_test_clr", "include/bfdev/asm-generic/atomic.h: bfdev_arch_atomic_fetch_or", "include/bfdev/bitops.h: bfdev_bit_atomic_test_set"]}
{"id": "C83", "title": "Byte-order bit numbering", "statement": "On machines of either byte order, a bit operation with little-endian numbering concerns bit i mod 8 of byte i div 8 of the memory and no other, and one with big-endian numbering bit i mod 8 of byte i div 8 counted from the end of the eight bytes the byte lies in.", "quantifier": "all bit numbers, memories and both byte orders", "why_tests_cant": "the result depends on the byte order of the machine the test runs on", "anchors": ["include/bfdev/bitops-endian.h: bfdev_bit_set_le, bfdev_bit_test_le, bfdev_bit_set_be, bfdev_bit_test_be"]}
{"id": "C84", "title": "Stand-alone hash tables", "statement": "After any history of additions and deletions, iterating over the index of a key visits exactly the nodes present whose keys have that index, iterating over the table visits every node present exactly once, the table is reported empty exactly when it is, and a removal-safe iteration that deletes every node visits them all.", "quantifier": "all histories, keys, power-of-two table sizes", "why_tests_cant": "histories are unbounded and which chain a node is in depends on its key", "anchors": ["include/bfdev/hashtbl.h: bfdev_hashtbl_init, bfdev_hashtbl_empty, bfdev_hashtbl_add, bfdev_hashtbl_del, bfdev_hashtbl_for_each, bfdev_hashtbl_for_each_idx, bfdev_hashtbl_for_each_safe, BFDEV_HASHTBL_CHECK"]}
{"id": "C85", "title": "Error names", "statement": "Asking for the name of an error number gives the name of the constant of that value, with a minus sign in front for a negated number, and its description; every number that is no constant, positive or negative, gives nothing.", "quantifier": "all values of int", "why_tests_cant": "the table is searched by bisection, so a misplaced entry hides others, and the argument is negated first", "anchors": ["src/errname.c: bfdev_errname, bfdev_errname_find, bfdev_errname_table", "include/bfdev/errno.h: BFDEV_EPERM"]}
{"id": "C86", "title": "Repeated text search and texts in blocks", "statement": "Calling the search again and again reports exactly the non-overlapping occurrences of the pattern from left to right and then that there are no more, in whatever blocks the text is delivered.", "quantifier": "all patterns, texts, ways to cut the text into blocks, and numbers of calls", "why_tests_cant": "unbounded texts; an occurrence may lie across any block boundary", "anchors": ["include/bfdev/textsearch.h: bfdev_textsearch_find, bfdev_textsearch_next", "src/textsearch/kmp.c: kmp_find", "src/textsearch/sunday.c: sunday_find", "src/textsearch/bm.c: bm_find"]}
{"id": "C87", "title": "Registries of algorithms", "statement": "After any history of registering and unregistering search or cache algorithms, the names of the registered ones are different, creating by name uses exactly the algorithm registered under it or fails, an incomplete algorithm, a taken name and an unknown algorithm are refused with the error for it, and a refused call changes nothing.", "quantifier": "all histories, algorithms and names", "why_tests_cant": "histories are unbounded", "anchors": ["src/textsearch/textsearch.c: bfdev_textsearch_register, bfdev_textsearch_unregister, bfdev_textsearch_create", "src/cache/cache.c: bfdev_cache_register, bfdev_cache_unregister, bfdev_cache_create"]}
{"id": "C88", "title": "Rounding, minimum and maximum, halves", "statement": "Rounding to a power of two gives the nearest multiple above or below; division rounding up gives the ceiling of the quotient and division to the closest gives the nearest number, halves away from zero; minimum, maximum and clamping pick the operand they name; the upper and lower half of a word make up the word.", "quantifier": "all values and types of any width", "why_tests_cant": "the dangerous cases are the sums next to the limits of each type", "anchors": ["include/bfdev/math.h: bfdev_round_up, bfdev_round_down, BFDEV_DIV_ROUND_UP, BFDEV_DIV_ROUND_CLOSEST", "include/bfdev/minmax.h: bfdev_min, bfdev_max, bfdev_clamp", "include/bfdev/uplower.h: bfdev_upper_32_bits, bfdev_lower_32_bits"]}
{"id": "C89", "title": "Character classes", "statement": "Each class test answers whether the character is in that class of the ASCII character set, the same for a constant and for a value only known at run time; case conversion exchanges letters and leaves everything else alone.", "quantifier": "all values of int, all classes, both variants of each test", "why_tests_cant": "whether the constant or the run-time variant is used depends on the optimiser, so a test sees only one of them", "anchors": ["include/bfdev/ctype.h: bfdev_isdigit_const, bfdev_isxdigit, bfdev_tolower, bfdev_toupper, bfdev_toascii, BFDEV_CTYPE_DYNAMIC", "src/libc/ctype.c: bfdev_ctype_table"]}
{"id": "C90", "title": "Log messages", "statement": "A message above the record level of the logger is dropped; every other message is handed to the writer exactly once, with the level named by its last header and a terminated text made of the level name, the colour, the formatted message and the colour reset, cut to the size of the buffer.", "quantifier": "all loggers, formats, arguments and writers", "why_tests_cant": "texts are unbounded and the buffer is filled piece by piece", "anchors": ["src/log/log.c: bfdev_vlog_core, bfdev_log_level, log_emit", "src/log/level.c: level_name, log_level", "src/log/color.c: log_color", "include/bfdev/level.h: BFDEV_SOH"]}
{"id": "C91", "title": "Debug checks", "statement": "With the debug checks of the default configuration compiled in, every history of correct calls on lists, trees, heaps, indexed lists and memory pools has the same effect as without them; inserting a node next to itself or between nodes that are no neighbours, deleting a node twice and freeing or resizing a freed block are refused and change nothing.", "quantifier": "all histories of correct calls, and all misuses of the kinds named", "why_tests_cant": "the checks look at pointers left by arbitrary earlier calls; a check that is too strict refuses only in some states", "anchors": ["src/list-debug.c: bfdev_list_check_add, bfdev_list_check_del", "src/slist-debug.c: bfdev_slist_check_add, bfdev_slist_check_del", "src/hlist-debug.c: bfdev_hlist_check_head_add, bfdev_hlist_check_del", "src/rbtree-debug.c: bfdev_rb_check_link, bfdev_rb_check_delete", "src/heap-debug.c: bfdev_heap_check_link, bfdev_heap_check_delete", "src/ilist.c: ilist_head_check", "src/memalloc.c: memalloc_check", "CMakeLists.txt: BFDEV_DEBUG_LIST"]}
{"id": "C92", "title": "Iteration macros of lists", "statement": "On a well-formed list, every iteration macro, forward or backward, started at the head, at a cursor or after a cursor, ends and meets exactly the nodes from its start to the end, each once, in order. The removal-safe macros do so whatever subset of the nodes the body deletes or moves to another list, and leave the list with exactly the other nodes in their order.", "quantifier": "all lists, starts, directions, and subsets of nodes the body removes", "why_tests_cant": "lists are unbounded, and which link is read after which removal depends on the subset", "anchors": ["include/bfdev/list.h: bfdev_list_for_each_from, bfdev_list_for_each_continue, bfdev_list_for_each_safe, bfdev_list_for_each_reverse_safe, bfdev_list_for_each_reverse_continue_safe, bfdev_list_for_each_entry_from_safe", "include/bfdev/slist.h: bfdev_slist_for_each_continue, bfdev_slist_for_each_safe, bfdev_slist_for_each_continue_safe", "include/bfdev/hlist.h: bfdev_hlist_for_each_continue, bfdev_hlist_for_each_safe, bfdev_hlist_for_each_entry_safe"]}
{"id": "C93", "title": "Tearing down a tree in post-order", "statement": "The removal-safe post-order iteration of a red-black tree or a heap visits every node exactly once, each after its children, whichever nodes the body gives back, and never reads a node that was given back; started at a node, or after one, it visits the rest of the order. Nor does it matter what else the body writes into the nodes it is given. The plain iteration visits the same nodes in the same order.", "quantifier": "all trees and heaps, and subsets of nodes the body gives back", "why_tests_cant": "use of a node after it was given back shows only under memory checkers, and depends on the shape of the tree", "anchors": ["include/bfdev/titer.h: BFDEV_TITER_BASE_DEFINE, BFDEV_TITER_POSTORDER_DEFINE", "include/bfdev/rbtree.h: bfdev_rb_post_for_each_safe, bfdev_rb_post_for_each_safe_continue, bfdev_rb_post_for_each", "include/bfdev/heap.h: bfdev_heap_post_for_each_safe", "src/rbtree.c: BFDEV_TITER_POSTORDER_DEFINE", "src/heap.c: BFDEV_TITER_POSTORDER_DEFINE"]}
{"id": "C94", "title": "Creating and destroying objects leaks nothing", "statement": "Creating a cache, a text search, a Bloom filter, a dynamic queue or ring buffer, or a bitmap either fails and leaves allocated exactly what was allocated before, or gives an object whose blocks are as large as its contents need. Destroying an object gives each of its blocks back exactly once, to the allocator it came from.", "quantifier": "all sizes, element sizes, allocators, and all combinations of requests the allocators refuse", "why_tests_cant": "which request is refused, and products of sizes next to the limits of their types", "anchors": ["src/allocator.c: bfdev_malloc, bfdev_zalloc, bfdev_free", "include/bfdev/allocator.h: bfdev_malloc_array, bfdev_zalloc_array", "src/cache/cache.c: bfdev_cache_create, bfdev_cache_destroy", "src/cache/lru.c: lru_create, lru_destroy", "src/cache/lfu.c: lfu_create, lfu_destroy", "src/textsearch/textsearch.c: bfdev_textsearch_create", "src/textsearch/bm.c: bm_prepare, bm_destroy", "src/textsearch/kmp.c: kmp_prepare", "src/textsearch/sunday.c: sunday_prepare", "src/bloom.c: bfdev_bloom_create, bfdev_bloom_destroy", "src/fifo.c: bfdev_fifo_dynamic_alloc, bfdev_fifo_dynamic_free", "src/ringbuf.c: bfdev_ringbuf_dynamic_alloc, bfdev_ringbuf_dynamic_free", "src/bitmap.c: bfdev_bitmap_alloc, bfdev_bitmap_free"]}
{"id": "C95", "title": "Iterating over the bits of a bitmap", "statement": "Every macro that iterates over the set or the zero bits of a bitmap, upwards or downwards, over all, from a position or after a position, visits exactly the positions with the wanted value on its way, each once, in order, and ends; the body may change the bits already passed.", "quantifier": "all bitmaps, sizes, starts, directions, and bodies that leave the bits ahead alone", "why_tests_cant": "bitmaps are unbounded and the body may change them during the walk", "anchors": ["include/bfdev/bitwalk.h: bfdev_for_each_bit, bfdev_for_each_zero, bfdev_for_each_bit_reverse, bfdev_for_each_bit_form, bfdev_for_each_zero_reverse_form, bfdev_for_each_bit_continue, bfdev_for_each_zero_reverse_continue"]}
{"id": "C96", "title": "Atomic operations take effect at one moment", "statement": "In every interleaving of any number of threads, each atomic fetch-and-modify, read, write, exchange and compare-and-swap behaves as if it took effect at one moment: it finds the value the calls before it left and stores the value it is to store. So a counter is the sum of what was added, tickets are different, a value put into a word is taken out at most once, and exactly one of several equal compare-and-swaps wins. An exchange is held up only by calls of others that succeed.", "quantifier": "all interleavings, numbers of threads, words and operands", "why_tests_cant": "depends on the order of concurrent memory accesses", "anchors": ["include/bfdev/asm-generic/atomic.h: bfdev_arch_atomic_fetch_add, bfdev_arch_atomic_fetch_sub, bfdev_arch_atomic_fetch_xor, bfdev_arch_atomic_read, bfdev_arch_atomic_write", "include/bfdev/asm-generic/cmpxchg.h: bfdev_arch_xchg, bfdev_arch_cmpxchg, bfdev_arch_try_cmpxchg"]}
{"id": "C97", "title": "Blocks go back to the heap they came from", "statement": "Whatever mixture of allocators with and without own operations is used, each request made through the allocator functions reaches the heap behind that allocator; the array forms ask for the product; freeing NULL and asking for nothing do nothing; resizing keeps the contents up to the smaller size and an unsuccessful one keeps the block; a resize to nothing frees.", "quantifier": "all histories, allocators, sizes, and requests the heaps refuse", "why_tests_cant": "which of the operations of an allocator are left out, and which requests are refused, varies", "anchors": ["src/allocator.c: bfdev_malloc, bfdev_zalloc, bfdev_realloc, bfdev_free", "include/bfdev/allocator.h: bfdev_malloc_array, bfdev_zalloc_array, bfdev_realloc_array"]}
{"id": "C98", "title": "Run once", "statement": "A statement under the run-once macros runs at most once, at the first time its condition holds, and the macro reports whether the condition held.", "quantifier": "all histories of reaching the place and all interleavings of threads", "why_tests_cant": "depends on the interleaving of the threads that reach the place", "anchors": ["include/bfdev/once.h: BFDEV_DO_ONCE, BFDEV_DO_ONCE_ON, BFDEV_DO_ONCE_DONE"]}
{"id": "C99", "title": "String hash and first difference", "statement": "The string hash is the 28-bit hash of Weinberger of the characters before the terminator; the searches for the first different character or byte return the first one that differs from the given one, within the string or size, or NULL, and read nothing beyond.", "quantifier": "all strings, characters and sizes", "why_tests_cant": "strings are unbounded; bits are carried out only by some strings of eight and more characters", "anchors": ["src/stringhash.c: bfdev_pjwhash", "src/libc/string.c: bfdev_strdiff, bfdev_memdiff"]}
{"id": "C100", "title": "B-tree iteration macros with removal", "statement": "Every iteration macro of the B-tree, towards smaller or towards larger keys, over all elements, from an element or after a key, visits exactly the elements on its way, each once, in order of their keys, and ends. The removal-safe macros do so whatever subset of the visited elements the body removes, and leave a tree with exactly the other elements.", "quantifier": "all histories, keys, starts, directions, and subsets of elements the body removes", "why_tests_cant": "removals during the walk merge and free nodes, and which ones depends on all earlier splits", "anchors": ["include/bfdev/btree.h: bfdev_btree_for_each, bfdev_btree_for_each_reverse, bfdev_btree_for_each_from, bfdev_btree_for_each_continue, bfdev_btree_for_each_safe, bfdev_btree_for_each_reverse_safe, bfdev_btree_for_each_continue_safe, bfdev_btree_for_each_reverse_continue_safe"]}
{"id": "C101", "title": "Removing hash map entries while iterating", "statement": "The removal-safe iteration over a hash map visits every entry that was present at its start exactly once, whatever subset of them its body deletes from the map, and ends; afterwards the map holds exactly the other entries.", "quantifier": "all histories, hash functions, callbacks, allocator answers, and subsets of entries the body deletes", "why_tests_cant": "a deletion can rebuild all buckets under the cursor, depending on how many entries are left and on how they collide", "anchors": ["include/bfdev/hashmap.h: bfdev_hashmap_for_each_safe, bfdev_hashmap_for_each_entry_safe", "include/bfdev/hashtbl.h: bfdev_hashtbl_for_each_safe", "src/hashmap.c: bfdev_hashmap_del, hashmap_shrink, hashmap_need_shrink"]}
{"id": "C102", "title": "Iterating over and deleting from indexed lists", "statement": "After every history of additions to and deletions from an indexed list, whatever the comparison callback answers, no operation loops forever and the list holds exactly the nodes added and not deleted since. Every iteration macro, forwards or backwards, over all nodes, from a node or after one, visits exactly the nodes on its way, each once, in order. The removal-safe macros do so whatever subset of the visited nodes the body deletes; the other nodes stay in order, and deleted nodes can be added again. A list that a loop emptied behaves as a new one.", "quantifier": "all histories, comparison callbacks, starts, directions, and subsets of nodes the body deletes", "why_tests_cant": "the index that additions walk over depends on all earlier additions and deletions, and which nodes the body deletes varies", "anchors": ["include/bfdev/ilist.h: bfdev_ilist_for_each, bfdev_ilist_for_each_reverse, bfdev_ilist_for_each_from, bfdev_ilist_for_each_continue, bfdev_ilist_for_each_safe, bfdev_ilist_for_each_reverse_safe, bfdev_ilist_for_each_entry_continue_safe", "src/ilist.c: bfdev_ilist_add, bfdev_ilist_del"]}
{"id": "C103", "title": "Iterating over and deleting from skip lists", "statement": "Every iteration macro of the skip list, on every level, forwards or backwards, over all nodes, from a node or after one, visits exactly the nodes of the level on its way, each once, in order. The removal-safe macros do so whatever subset of the visited nodes the body deletes from the skip list, and leave a skip list with exactly the other nodes.", "quantifier": "all histories, levels drawn, starts, directions, and subsets of nodes the body deletes", "why_tests_cant": "deletion is by key and takes a node out of all its levels at once; what it does to the level under the cursor depends on levels drawn at random", "anchors": ["include/bfdev/skiplist.h: bfdev_skiplist_for_each, bfdev_skiplist_for_each_reverse, bfdev_skiplist_for_each_from, bfdev_skiplist_for_each_continue, bfdev_skiplist_for_each_safe, bfdev_skiplist_for_each_reverse_safe, bfdev_skiplist_for_each_continue_safe", "src/skiplist.c: bfdev_skiplist_delete, bfdev_skiplist_insert"]}
{"id": "C104", "title": "Radix tree iteration macros with removal", "statement": "Every iteration macro of the radix tree, upwards or downwards, over all elements, from an element or after one, visits exactly the elements on its way, each once, in the order of their indices, and ends. The removal-safe macros do so whatever subset of the visited elements the body frees, and afterwards the tree holds exactly the other elements.", "quantifier": "all histories, element sizes, start positions and subsets freed", "why_tests_cant": "freeing an element can take away the blocks on the way to the next one; the walk depends on how the elements lie in the blocks", "anchors": ["include/bfdev/radix.h:bfdev_radix_for_each_safe", "include/bfdev/radix.h:bfdev_radix_for_each_reverse_continue_safe", "src/radix.c:bfdev_radix_root_next"]}
{"id": "C105", "title": "Augmented red-black trees keep their summaries", "statement": "With the callbacks made by the callback macros from any function that summarises a subtree by its node and the summaries of its children, and whose result depends only on the order of the nodes, every node of the tree stores the summary of exactly the nodes in its subtree after every history of augmented insertions and deletions; the root stores that of all nodes. For the maximum macro it is the greatest value of all nodes.", "quantifier": "all summary functions of this kind, orders, and histories of insertions and deletions", "why_tests_cant": "rotations and removals move whole subtrees; which ones depends on all earlier insertions and deletions", "anchors": ["include/bfdev/rbtree.h: BFDEV_RB_DECLARE_CALLBACKS, BFDEV_RB_DECLARE_CALLBACKS_MAX, bfdev_rb_insert_augmented, bfdev_rb_delete_augmented", "src/rbtree.c: bfdev_rb_fixup_augmented, bfdev_rb_remove_augmented, bfdev_rb_erase_augmented"]}
{"id": "C106", "title": "Byte order conversions on machines of either byte order", "statement": "On little-endian and on big-endian machines, every conversion between the order of the machine and little-endian or big-endian order, of a value, through a pointer, in place, of an array, or by the unaligned accessors, leaves exactly the bytes of the value in the order asked for and touches nothing else; converting back returns the value, and the array forms may convert in place.", "quantifier": "all values of 16, 32 and 64 bits, addresses, memory contents, array sizes, and both byte orders", "why_tests_cant": "the machine of the tests has one byte order only", "anchors": ["include/bfdev/byteorder/little-endian.h: bfdev_cpu_to_le16, bfdev_be64_to_cpup, bfdev_cpu_to_be32s", "include/bfdev/byteorder/big-endian.h: bfdev_cpu_to_le16, bfdev_be64_to_cpup, bfdev_cpu_to_be32s", "include/bfdev/asm-generic/byteorder.h: bfdev_cpu_to_le16_array, bfdev_le64_to_cpu_array", "include/bfdev/asm-generic/unaligned.h: bfdev_arch_unaligned_get_le16, bfdev_arch_unaligned_set_be64"]}
{"id": "C107", "title": "Searching and sorting survive any answers of the callback", "statement": "Whatever the comparison callback answers, even if it contradicts itself or its answers change from call to call, binary search, the array sort, the list sort and searching, inserting into and deleting from a red-black tree end after a bounded number of calls (log2 n + 1; 3 n log2 n; 2 n log2 n; 2 log2 (n + 1)), only ask about elements of the collection and only touch the collection: the array and the list hold a permutation of what they held, the tree keeps its red-black rules and its other nodes their order, and an element is reported found or already present only after the answer 0 about it.", "quantifier": "all collections of any size (bound for lists of fewer than 2^32 nodes) and all sequences of answers", "why_tests_cant": "a test fixes the answers; here an adversary chooses each one", "anchors": ["src/bsearch.c: bfdev_bsearch", "src/sort.c: bfdev_sort", "src/list-sort.c: bfdev_list_sort", "src/rbtree.c: bfdev_rb_find, bfdev_rb_parent", "include/bfdev/rbtree.h: bfdev_rb_insert, bfdev_rb_delete"]}
{"id": "C108", "title": "One writer and one reader share a queue without a lock", "statement": "When one thread only puts into a fifo (without records) and one other thread only takes out, peeks or empties it, no lock is needed on a machine that performs the accesses in the order of the source: whatever the interleaving of the single accesses, and in whatever order a copy goes through its bytes, no access leaves the queue's block or a caller's buffer, the reader receives exactly the bytes that were accepted, in order, none lost, doubled or torn, the queue never holds more than its size, a put is refused only when the queue is full and a get only when it is empty at that moment, the two threads never touch the same byte, and neither ever waits for the other.", "quantifier": "all sizes, element sizes, counter values (including their wrap), all sequences of calls of both threads, all interleavings and copy orders", "why_tests_cant": "the number of interleavings of two copies is astronomical and a test sees the few the machine happens to produce", "anchors": ["src/fifo.c: bfdev_fifo_in_flat, bfdev_fifo_out_flat, bfdev_fifo_peek_flat", "include/bfdev/fifo.h: bfdev_fifo_put, bfdev_fifo_get, bfdev_fifo_peek, bfdev_fifo_homing, bfdev_fifo_len"]}
{"id": "C109", "title": "A cached tree knows its first node", "statement": "Over any history of insertions, deletions, replacements and looks at the first node, a cached tree reports as first exactly the least node (NULL when it is empty), an insertion says whether the node was taken, a deletion returns the new first node if the first one was deleted and NULL otherwise, and the tree keeps order and colouring rules; taking the first node until none is left yields all nodes in ascending order.", "quantifier": "all histories of allowed calls, all orders, all trees", "why_tests_cant": "the cached pointer must be right after every one of infinitely many histories; a stale pointer shows only much later", "anchors": ["include/bfdev/rbtree.h: bfdev_rb_cached_insert, bfdev_rb_cached_delete, bfdev_rb_cached_replace, bfdev_rb_cached_first"]}
{"id": "C110", "title": "A heap survives any answers of its comparison", "statement": "Whatever a heap's comparison callback answers, call by call, insertions and deletions end and leave a complete binary tree of exactly the nodes put in and not deleted. With n nodes an insertion asks at most log2(n+1) times and a deletion at most 2 log2(n-1) times, each time about two different nodes of the heap and never about NULL.", "quantifier": "all histories of insertions and deletions, all nodes, all answers of the callback, also contradictory and changing ones", "why_tests_cant": "a test uses a handful of sane comparisons; a broken one must not corrupt memory for any sequence of answers", "anchors": ["src/heap.c: bfdev_heap_fixup, bfdev_heap_erase, bfdev_heap_remove, bfdev_heap_parent", "include/bfdev/heap.h: bfdev_heap_insert, bfdev_heap_delete"]}
{"id": "C111", "title": "A skip list survives any answers of its callbacks", "statement": "Whatever the comparison callbacks answer, call by call, searching, inserting and deleting are well defined and ask about nodes of the list only, each at most once. A search or deletion stops at the first answer 0 and takes that node; without such an answer it finds nothing and changes nothing. An insertion puts the new node somewhere between the others. After every history each level is a part of the level below, in the same order, and the nodes are exactly those allocated and not given back, so that a deleted node is linked on no level.", "quantifier": "all histories, all levels drawn, all answers of the callbacks, also contradictory and changing ones", "why_tests_cant": "a test uses a handful of sane comparisons; a node deleted from some of its levels only would be a dangling pointer that shows much later", "anchors": ["src/skiplist.c: bfdev_skiplist_find, bfdev_skiplist_insert, bfdev_skiplist_delete, skipnode_find, random_level"]}
{"id": "C112", "title": "An indexed list never loses or gains nodes", "statement": "Whatever is added and deleted, in any order, the first of several equal nodes included, and whatever the comparison answers, call by call: every call ends, and the list a caller walks holds exactly the nodes added and not deleted since, each once. The order of the nodes already there never changes. An addition asks about each node at most once, plus one question more, and only about the new node and nodes of the list. Nodes outside the list are linked nowhere and the checks of the default configuration pass.", "quantifier": "all histories of additions and deletions, all answers of the comparison, also contradictory and changing ones", "why_tests_cant": "a test uses a few orders and sane comparisons; a node still in the index after its deletion is a dangling pointer that shows much later", "anchors": ["src/ilist.c: bfdev_ilist_add, bfdev_ilist_del", "include/bfdev/ilist.h: bfdev_ilist_for_each"]}
{"id": "C113", "title": "Aligning values and pointers of any integer type", "statement": "For a value of any integer type, or a pointer, and an alignment that is a power of two of any integer type, the check is true exactly for multiples; aligning down gives the greatest multiple that is not above the value; aligning up gives the least multiple that is not below it, if it fits; and the variants that work in place store that number.", "quantifier": "all integer types of both operands, all values, all powers of two", "why_tests_cant": "the macros take operands of any types and C converts between them; a test tries a few combinations with small numbers, where the conversions cannot be seen", "anchors": ["include/bfdev/align.h: bfdev_align_check, bfdev_align_low, bfdev_align_high, bfdev_align_ptr_check, bfdev_align_ptr_low, bfdev_align_ptr_high, bfdev_align_low_adj, bfdev_align_high_adj"]}
{"id": "C114", "title": "A skip list stays inside its blocks and gives all of them back", "statement": "Through any history of insertions, deletions and resets, with any answers of the callbacks, any levels drawn, any requests refused and other users of the same allocators: the blocks in use are those of the others, one for the head and one per element; every link in use lies inside the block it belongs to; no block is given back twice; a refused insertion or creation leaves no memory behind; resetting leaves only the head and destroying leaves nothing.", "quantifier": "all histories, answers, levels, refusals and other users", "why_tests_cant": "the sizes of the blocks depend on random levels; a test sees a few draws and cannot see what happens at every refusal", "anchors": ["src/skiplist.c: bfdev_skiplist_create, bfdev_skiplist_insert, bfdev_skiplist_delete, bfdev_skiplist_reset, bfdev_skiplist_destroy, skiplist_release"]}
{"id": "C115", "title": "Reference counters report misuse and nothing else", "statement": "With the debug option of reference counters, which is on by default, a call is reported exactly if it is misuse: taking references from a counter without any, putting more references than there are, acquiring from a negative counter, or overflowing the counter; correct use by any number of threads is never reported.", "quantifier": "all counter values and numbers of references, all interleavings of correct use", "why_tests_cant": "the tests look at values that other threads change, and overflow needs 2^63 references; a test sees a few calls in one order", "anchors": ["include/bfdev/refcount.h: bfdev_refcnt_fetch_add, bfdev_refcnt_fetch_sub_test, bfdev_refcnt_fetch_addnz_test", "src/refcount.c: bfdev_refcnt_report"]}
{"id": "C116", "title": "A hash map neither loses nor invents nodes nor memory, whatever its callbacks answer", "statement": "Whatever the hash, comparison and resize callbacks answer, and even if they answer the same question differently each time, every call on a hash map ends and does nothing undefined, the nodes in the map are exactly those inserted and not replaced, deleted or released since, an answer is always a node of the map that the callback accepted, an insertion fails for want of memory only if the allocator refused and then changes nothing, going through the map visits every node once, and the memory in use is exactly one table of the current size, which releasing the map gives back.", "quantifier": "all histories of calls, all sequences of callback answers, all allocator behaviours", "why_tests_cant": "a test has a few callbacks that are consistent; that nothing is lost with callbacks that are not needs all sequences of answers and all moments of growing and shrinking", "anchors": ["src/hashmap.c: bfdev_hashmap_insert, bfdev_hashmap_del, bfdev_hashmap_find, bfdev_hashmap_release, hashmap_rehash", "include/bfdev/hashmap.h: bfdev_hashmap_for_each"]}
{"id": "C117", "title": "Arrays hold one block each, give it back, and ask for memory logarithmically often", "statement": "Whatever calls are made on any number of arrays, matrices and big integers, over any allocators and with any requests refused, every one of them with memory holds exactly one live block with room for its capacity, no block is given back twice or to another allocator, temporaries of products and quotients are gone when the call returns, a refused call changes nothing, releasing them leaves exactly the blocks of others, and an array that never holds more than M elements is given at most about log2(M) blocks and never has room for more than twice that.", "quantifier": "all histories of calls on any number of objects, all sequences of allocator refusals, all element sizes", "why_tests_cant": "leaks and double frees show only for particular interleavings of refusals and growth; the number of requests is a bound over all histories", "anchors": ["src/array.c: array_apply, array_resize, array_reqsize, bfdev_array_push, bfdev_array_resize, bfdev_array_reserve, bfdev_array_release", "src/allocator.c: bfdev_realloc", "src/matrix.c: bfdev_matrix_mul", "src/mpi.c: mpi_mul, mpi_div"]}
{"id": "C118", "title": "Notifier callbacks may change the chain that is calling them", "statement": "While a round of notifications runs, a callback may register further nodes, unregister nodes, itself included, and start further rounds, to any depth, on the chain that is calling it: the round ends, calls after each node the one that stood behind it, never calls a node that is not registered, counts its calls and returns the last answer, and the chain then holds exactly the nodes registered and not unregistered or removed since, in order of priority.", "quantifier": "all chains, all callbacks with any state, answers and sequences of registrations and unregistrations, all limits on the number of calls", "why_tests_cant": "which node a callback registers or unregisters, and when, is up to the callbacks; there are infinitely many ways to edit a list while it is walked", "anchors": ["src/notifier.c: bfdev_notifier_call, bfdev_notifier_register, bfdev_notifier_unregister", "include/bfdev/ilist.h: bfdev_ilist_for_each_entry_safe", "src/ilist.c: bfdev_ilist_del"]}
{"id": "C119", "title": "A Knuth-Morris-Pratt search is linear in the text it reads", "statement": "Preparing a pattern compares characters at most three times per character of the pattern. A search from an offset compares characters at most three times per character up to the end of the occurrence it reports, or up to the end of the text when there is none. It asks the callback for blocks at ascending positions from the offset on, never twice for the same position, and for nothing behind the occurrence.", "quantifier": "all patterns below 2^30 characters, all texts below 2^32, all ways the callback cuts the text into blocks, all offsets, both settings of the case flag", "why_tests_cant": "the number of comparisons depends on how the pattern overlaps itself and the text; a quadratic search passes every functional test", "anchors": ["src/textsearch/kmp.c: kmp_find, kmp_compute_prefix, kmp_prepare"]}
{"id": "C120", "title": "Big integers stay proper objects in every program", "statement": "Whatever program of calls computes with big integers, from freshly initialised ones on, every number stays proper as long as no call aborts: it has no leading zero limb, so that comparing by length is right, its limbs are machine words, and they lie inside the memory block the object owns. A call changes only its results, and a call with one result that reports missing memory has changed nothing at all.", "quantifier": "all sequences of calls of the arithmetic, division, bit, shift, copy, import and release functions, all operands, results that are the same object as operands or not, divisors with or without their top bit, all answers of the allocator and contents of new memory", "why_tests_cant": "the calls interact through the objects they leave behind; the number of programs and values is unbounded and most go through results of earlier calls", "anchors": ["src/mpi.c: bfdev_mpi_add, bfdev_mpi_sub, bfdev_mpi_mul, bfdev_mpi_div, bfdev_mpi_mod, bfdev_mpi_and, bfdev_mpi_or, bfdev_mpi_xor, bfdev_mpi_shli, bfdev_mpi_shri, bfdev_mpi_bseti, bfdev_mpi_bclri, bfdev_mpi_import, bfdev_mpi_release"]}
{"id": "C121", "title": "Reading and printing big integers digit by digit is exact", "statement": "A program that reads a number by multiplying by the base and adding the next digit, in place, ends with exactly the number these digits denote, whatever their number; dividing by the base again and again, with the quotient in place, yields the digits from the lowest to the highest; so digits that are read and printed come back unchanged. No call goes wrong, no other object changes, and the only possible failure is missing memory.", "quantifier": "all bases that fit a machine word, all sequences of digits of any length, all non-negative start values, all decisions of the allocator", "why_tests_cant": "The values have unboundedly many limbs and the interplay of carries, normalisation and in-place results depends on all of them; tests convert a few numbers.", "anchors": ["src/mpi.c: bfdev_mpi_muli, bfdev_mpi_addi, bfdev_mpi_divi"]}
{"id": "C122", "title": "A radix tree takes no more memory than its elements need", "statement": "A sparse array has a level above its blocks only while it holds an element that the levels below it have no room for, also after elements with high offsets were freed; it uses at most one node per level plus one per level and element; and once its last element is freed at most one node is still in use.", "quantifier": "all histories of allocating, freeing and releasing, all offsets below 2^63", "why_tests_cant": "Which nodes can be given back depends on the whole history of allocations and on how the offsets share their digits; leaks show only in long runs.", "anchors": ["src/radix.c: bfdev_radix_root_alloc, bfdev_radix_root_free, bfdev_radix_root_release"]}
{"id": "C123", "title": "Rebalancing a red-black tree takes at most two or three rotations", "statement": "Whatever was inserted and deleted before, an insertion into a red-black tree rotates it at most twice and a deletion at most three times, whatever its size; an insertion calls no other callback of an augmented tree, a deletion copies at most once and propagates at most twice. The callbacks have no influence on the shape of the tree.", "quantifier": "all histories of insertions and deletions, all orders of the nodes, all callbacks", "why_tests_cant": "The bound holds for trees of any size and shape; the cases with three rotations need particular colourings that few test trees have.", "anchors": ["src/rbtree.c: bfdev_rb_fixup_augmented, bfdev_rb_erase_augmented, bfdev_rb_remove_augmented", "include/bfdev/rbtree.h: bfdev_rb_insert_augmented, bfdev_rb_delete_augmented, bfdev_rb_callbacks"]}
{"id": "C124", "title": "Rebalancing a red-black tree costs a constant per call over any history", "statement": "A history of m insertions and deletions, in any order and from an empty tree, makes at most 3 * m rounds in the loops that rebalance the tree, altogether, whatever the size of the tree. A single call may still need as many rounds as the tree is high.", "quantifier": "all histories of insertions and deletions, all orders of the nodes, all callbacks", "why_tests_cant": "The bound is about sums over histories of any length; a test sees one history, and long runs of recolouring need trees that were made for them.", "anchors": ["src/rbtree.c: bfdev_rb_fixup_augmented, bfdev_rb_erase_augmented, bfdev_rb_remove_augmented", "include/bfdev/rbtree.h: bfdev_rb_insert_augmented, bfdev_rb_delete_augmented"]}
{"id": "C125", "title": "Points of time compare like their values", "statement": "bfdev_time_after, before, after_equal and before_equal order points of time by their values, without wrap-around, and bfdev_time_compare is 0 exactly for equal ones. Adding or subtracting a period is exact and undone by the other, and defined exactly if the result is a point of time; so a deadline has passed exactly if more than the period has gone by.", "quantifier": "all pairs of 64-bit points of time and all periods", "why_tests_cant": "2^128 pairs; mistakes show at the ends of the range", "anchors": ["include/bfdev/time.h: bfdev_time_add, bfdev_time_sub, bfdev_time_compare, bfdev_time_after, bfdev_time_before, bfdev_time_after_equal, bfdev_time_before_equal", "include/bfdev/macro.h: bfdev_cmp"]}
{"id": "C126", "title": "A hash map's table fits its entries and resizing costs a constant per call", "statement": "With the default policies: over any history of m calls, with any allocation failures, the exchanges of the table initialise and visit at most 72 * m buckets and entries altogether, although a single call may move every entry; there are never more than three entries for every four buckets, but for one; and unless a request for a smaller table was refused, a table of more than sixteen buckets is at least a quarter full.", "quantifier": "all histories of insertions, deletions, lookups and releases, all keys and hash functions, all allocation failures", "why_tests_cant": "The bound is about sums over histories of any length around two thresholds; a test sees one history and no allocation failures.", "anchors": ["src/hashmap.c: hashmap_need_extend, hashmap_need_shrink, hashmap_rehash, hashmap_extend, hashmap_shrink, bfdev_hashmap_insert, bfdev_hashmap_del"]}
{"id": "C127", "title": "Different seeds give different random sequences", "statement": "Two generators seeded with different 64-bit seeds do not give the same sequence of results for ever.", "quantifier": "all pairs of seeds, and all pairs of generator states", "why_tests_cant": "There are 2^127 pairs of seeds, and that two sequences differ for ever or agree for ever cannot be seen from any finite part of them.", "anchors": ["src/prandom.c: bfdev_prandom_seed, prandom_setup, seed_minimum, prandom_warmup, bfdev_prandom_value"]}
{"id": "C128", "title": "Random numbers of both sizes are cut from one stream", "statement": "Any sequence of draws of 32-bit, 64-bit and long numbers reads one stream of 32-bit results in order, without leaving out or repeating any of them; a wide number is made of two of them, the upper half first.", "quantifier": "all generator states and all sequences of draws", "why_tests_cant": "Sequences of draws are unbounded and there are 2^128 states.", "anchors": ["include/bfdev/prandom.h: bfdev_prandom_u64, bfdev_prandom_long", "src/prandom.c: bfdev_prandom_value"]}
{"id": "C129", "title": "Edit distance is a distance", "statement": "The edit distance of two strings is 0 exactly for equal strings if no operation is free, the same in both directions if additions and deletions cost the same, at least what the difference of the lengths costs, and never larger than the distance over a third string.", "quantifier": "all strings and all costs that do not overflow", "why_tests_cant": "Triples of strings of any length and all costs.", "anchors": ["src/levenshtein.c: bfdev_levenshtein_len, bfdev_levenshtein"]}
{"id": "C130", "title": "Checksums detect every error of two bits in messages of the usual sizes", "statement": "Two messages of the same length that differ in exactly two bits get different checksums, unless the distance of the two bits is a multiple of 127 (CRC-7 and CRC-8), 32767 (CRC-16, CRC-CCITT and CRC-ITU-T), 65535 (CRC-T10-DIF) or 4294967295 (CRC-32); then they get the same.", "quantifier": "all pairs of messages of any length that differ in exactly two bits, all initial values and all addresses", "why_tests_cant": "Messages are unbounded and the shortest undetected error of CRC-32 needs a message of 512 MiB.", "anchors": ["include/bfdev/crypto/crc-inline.h: BFDEV_CRC_INLINE", "scripts/gen-crc.c: table_generic", "include/bfdev/crypto/crc4-inline.h"]}
{"id": "C131", "title": "Checksums detect every odd number of flipped bits", "statement": "Two messages of the same length that differ in an odd number of bits get different checksums.", "quantifier": "all pairs of messages of any length that differ in an odd number of bits, all initial values and all addresses", "why_tests_cant": "Messages and sets of flipped bits are unbounded.", "anchors": ["include/bfdev/crypto/crc-inline.h: BFDEV_CRC_INLINE", "scripts/gen-crc.c: table_generic", "include/bfdev/crypto/crc4-inline.h"]}
{"id": "C132", "title": "An action calls what it was last given", "statement": "Calling an action calls the function it was last given, once, with the argument it was last given, and returns its result; without a function, or after it was taken away, the call reports that there is no data and calls nothing. Functions may change the action they are called from.", "quantifier": "all histories of initialising, updating, clearing and calling an action, and all behaviours of the functions", "why_tests_cant": "Histories and functions that change the action they are called from are unbounded.", "anchors": ["include/bfdev/action.h: bfdev_action_init, bfdev_action_update, bfdev_action_clear, bfdev_action_call"]}
{"id": "C133", "title": "Equal digests come from the compression function alone", "statement": "If two different messages get the same MD5, SHA-1 or SHA-256 digest, then the standard's compression function gives the same result for two different inputs among those it is called with for the two messages: cutting into updates, buffering, padding and the length field never add a collision of their own. For SHA-224 this or the two final values differ in the omitted word alone.", "quantifier": "all pairs of messages shorter than 2^61 bytes, all ways of cutting them into updates and all contexts", "why_tests_cant": "No pair of messages with equal digests can be found by testing, let alone all of them.", "anchors": ["include/bfdev/crypto/md5-base.h", "include/bfdev/crypto/sha1-base.h", "include/bfdev/crypto/sha2-base.h"]}
{"id": "C134", "title": "A larger LRU cache never misses more", "statement": "A least-recently-used cache whose entries are obtained, committed and given back one at a time never refuses a tag, finds exactly the tags among the last `capacity` different ones used, and counts as misses exactly the uses of other tags. So whatever a cache finds a larger one finds too, and the larger one never counts more misses, for any history.", "quantifier": "all histories of tags shorter than 2^64/3, all sizes, limits of pending changes of at least one, hash functions and data", "why_tests_cant": "The claim compares two caches over every history; replacement policies that break it do so only on particular histories.", "anchors": ["src/cache/cache.c: bfdev_cache_create, bfdev_cache_obtain, bfdev_cache_committed, bfdev_cache_put, bfdev_cache_find", "src/cache/lru.c"]}
{"id": "C135", "title": "An LRU cache is never far from the best possible one", "statement": "Take any history of tags and any other way to serve it with room for at most the same number of entries, even one that knows the history in advance. A least-recently-used cache of capacity k, used for one entry at a time, counts at most k misses for each time the other has to fetch a tag; and if the other has room for only h entries, (k - h + 1) times the misses are at most k times the fetches plus k(k - h).", "quantifier": "all histories of tags shorter than 2^64/3, all sizes, hash functions and data, all other ways to keep entries and all rooms h from 1 to k", "why_tests_cant": "It compares the cache with every possible replacement strategy on every history.", "anchors": ["src/cache/cache.c: bfdev_cache_create, bfdev_cache_obtain, bfdev_cache_committed, bfdev_cache_put", "src/cache/lru.c"]}
{"id": "C136", "title": "A rate limiter bounds every stretch of time", "statement": "Whatever was called before, of the calls made in any stretch of time no longer than the interval a limiter admits less than twice the burst; of the calls made in a stretch of any length d it admits less than burst * (d / (interval + 1) + 2).", "quantifier": "all intervals, bursts, histories of calls before the stretch, and calls in the stretch, in any order of times", "why_tests_cant": "The limiter's own windows begin wherever calls happen to fall; the worst case straddles two of them.", "anchors": ["src/ratelimit.c: bfdev_ratelimit"]}
{"id": "C137", "title": "Encoded pieces put together are the encoded whole", "statement": "The Base64 text of data cut in two is the text of the first piece followed by the text of the second if the cut is at a multiple of three bytes, for Base32 at a multiple of five bytes; and for no other cut before the end of the data.", "quantifier": "all byte strings and all ways of cutting them in two", "why_tests_cant": "A streaming encoder relies on it for every cut of every input.", "anchors": ["src/crypto/base64.c: bfdev_base64_encode, bfdev_base64_decode", "include/bfdev/base64.h", "src/crypto/base32.c: bfdev_base32_encode, bfdev_base32_decode", "include/bfdev/base32.h"]}
{"id": "C138", "title": "Matrix programs obey the laws of algebra", "statement": "Programs that compute (A B) C and A (B C), A (B + C) and A B + A C, or A + B and B + A, into separate matrices end with equal matrices, and adding a matrix in place and subtracting it again gives the first one back, all with the wrap-around of the entries.", "quantifier": "all dimensions whose products fit 32 bits, all entries, all contents of fresh memory and all destinations that do not overwrite what is still needed", "why_tests_cant": "The laws must hold for every dimension and every overflowing entry.", "anchors": ["src/matrix.c: GENERIC_MATRIX_ADDSUB, bfdev_matrix_mul, bfdev_matrix_trans, bfdev_matrix_data"]}
{"id": "C139", "title": "What a Bloom filter reports as new", "statement": "Of any history of pushes without a flush, a Bloom filter reports as new only first pushes of a key, and at most as many as its capacity rounded down to a power of two; when it has reported that many it says of every further key that it was pushed.", "quantifier": "all filters whose bitmap matches their capacity, all hash functions and all histories of pushes", "why_tests_cant": "The bound must hold for every hash function and history.", "anchors": ["src/bloom.c: bfdev_bloom_push, bfdev_bloom_peek, bfdev_bloom_flush"]}
{"id": "C140", "title": "What an ARC4 stream depends on", "statement": "The context after a message depends on the length of the message only, and two messages sent from one context differ in the bits in which their cipher texts differ; keys that agree when repeated up to 256 bytes, such as a key and its repetition or keys with the same first 256 bytes, give the same context, whatever it was before; contexts that are equal after equally many bytes were equal before.", "quantifier": "all contexts, keys and messages", "why_tests_cant": "Keys, messages and contexts are unbounded or far too many.", "anchors": ["src/crypto/arc4.c: bfdev_arc4_trans, bfdev_arc4_setkey"]}
