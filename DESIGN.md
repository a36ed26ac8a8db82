# Formal model of openbfdev/bfdev in Lean 4

## 1. Trusted base

* Lean 4.33.0's kernel and the axioms `propext`, `Classical.choice`, `Quot.sound`. Every property theorem depends on a subset of these
  three and on nothing else; section 6 says how this is checked. No axiom is added, there is no `sorry` or `admit`, no `native_decide` and
  no `bv_decide`. Kernel computation (`decide`, `decide +kernel`, `rfl`) is used for whole finite tables and for concrete witnesses and
  examples.
* The reading of the C code. The code is never run here. Every model definition carries a comment with the file and the lines it models
  and says where it simplifies.
* Target: LP64, little endian, `CHAR_BIT = 8`, `BITS_PER_LONG = 64`, default CMake options (in particular `BFDEV_CRC_EXTEND` is ON and all
  `BFDEV_DEBUG_*` are OFF). `unsigned long`, `size_t`, `uintptr_t` have 64 bits, `unsigned int` 32.
* Compiler builtins have their documented meaning: `__builtin_ctz/clz/ffs/popcount/bswap/*_overflow`, `__builtin_constant_p` (both answers
  are covered where it matters), and the `__sync` builtins as sequentially consistent atomic steps.
* C library functions have their standard meaning: `malloc/realloc/free` (any answer, including refusal), `memcpy` (undefined on overlap),
  `memmove`, `memset`, `memcmp`, `strlen`, `strcpy`, `strncpy`, `strspn`, `strcspn`, `vsnprintf`, `toupper/tolower` in the C locale, `rand`
  with `RAND_MAX = 2^31 - 1`.
* User callbacks are parameters: arbitrary functions, assumed not to touch the object they are called from unless the model says otherwise.

## 2. Modelling conventions

* One directory per area under `lean/Verif/`. `Model.lean` holds the model, `Spec.lean` (where there is one) the independent specification,
  `Props.lean` the property theorems with their examples, all other files are helper lemmas.
* Unsigned C arithmetic that may wrap is `BitVec n`, or `Nat` with explicit `% 2^n`. `Nat` without wrapping is only used where the model's
  comment names the precondition.
* Undefined behaviour (out-of-bounds access, use of an uninitialised cell, shift by the word size, use of a dead pointer), the
  `BFDEV_BUG_ON` abort and endless loops are a distinct outcome of the model (`none`), never assumed away: a theorem that says a call
  returns `some …` says that none of this happens.
* Pointers: arrays become lists with explicit bound checks. Linked structures become heaps `Addr → Node` when the pointer surgery is the
  point (`list.h`, `hlist.h`, `slist.h`, `rbtree.c`, `heap.c`, `list-sort.c`, `btree.c`, `hashmap.c`, `ilist.c`, `respool.c`) and values
  (lists, inductive trees) when the links were already proved elsewhere.
* Concurrency: interleaving semantics at the granularity of single atomic operations, sequentially consistent.
* When the code contradicts the property, the file contains a theorem `…_violated` with a concrete witness inside the model, and a
  `…_partial` theorem (or one with the guard in its hypotheses) for the cases in which the code is right.

## 3. Plan per property

| id | model | proof |
|----|-------|-------|
| C01 | `Base64`: encoder/decoder loops on byte lists | induction on 3-byte groups, table inverse by kernel computation over the 64-entry table |
| C02 | `Base32` | same with 5-byte groups, both alphabets |
| C03 | `Ascii85` | group arithmetic by `omega`; the code mishandles `z`, so violated + partial |
| C04 | `Base64`, `Base32` | success iff all symbols legal |
| C05 | `Fifo`: buffer as a byte list, 64-bit counters | refinement to a bounded queue, step by step, lifted to histories |
| C06 | `Fifo`, `Ringbuf` record functions | violated (length is poked at the read index) |
| C07 | `Ringbuf` | refinement to "last n of the stream" |
| C08 | `Array` with allocator oracle | refinement to `List`; wrap of the byte count violated |
| C09 | `Bsearch` | loop invariant, out-of-bounds is `none` |
| C10 | `Sort` (heap sort on byte offsets) | permutation + sortedness by heap invariant |
| C11 | `ListSort` (pending lists by bits of count, on the heap of links) | merge invariants: sorted, permutation, stability |
| C12–C14 | `Rbtree` (pointer heap) | representation by coloured trees with a hole; colour/height invariants, in-order sequence |
| C15 | `Rbtree` iteration macros | successor lemma on the representation |
| C16 | `Heap` (pointer heap) | complete-tree representation, sift-up/down invariants |
| C17–C19 | `Dlist`, `Hlist`, `Slist`: heap-of-nodes models | representation predicate, each operation proved as a sequence operation; `hlist` next/prev add violated |
| C20–C21 | `Llist`, `Refcount` | interleaving semantics, invariants over all schedules; conditional add violated |
| C22 | `Hashmap` on `Hlist` | refinement to a finite map, allocator oracle |
| C23 | `Bloom` | bit-set monotonicity; flush violated |
| C24 | `Skiplist` | levels as sublists; invariant over histories |
| C25 | `Ilist` on `Dlist` | violated + partial (no deletion of the first of equals) |
| C26 | `Notifier` on `Ilist` | order and call loop |
| C27 | `Radix` | tree values with a finite-map semantics; violated + partial |
| C28 | `Btree` (pointer heap, fully including splits, merges, root changes, refused memory) | ghost trees with key bounds and fill bounds; insertion and removal keep the sorted list; violated + partial |
| C29 | `Segtree` on `Rbtree` | search correctness from the augmentation invariant; deletion keeps it (every step of the rebalancing repairs the maxima on the path to the root); a simulation of the insertion by a run that sets the new node's maximum first shows exactly when insertion keeps it; histories by induction |
| C30 | `Memalloc` | tiling invariant |
| C31 | `Allocpool` | disjointness; wrap violated + partial |
| C32–C33 | `Cache` | invariant over histories, policies as lists / the pointer heap |
| C34 | `Fsm` | decision logic of dispatch against a relational specification; `Fsm/Whole`: the whole event, crossings included, is equivalent to an abstract machine |
| C35–C36 | `Tokenbucket`, `Ratelimit` | history invariants |
| C37 | `Respool` | release_all violated, others proved |
| C38 | `Matrix` | index arithmetic |
| C39 | `Levenshtein` | DP against inductively defined edit scripts |
| C40–C43 | `Mpi` | limb lists with a value function |
| C44 | `Dword` | Knuth style division proof |
| C45–C48 | `Bitmap` | pointwise bit lemmas |
| C49–C52 | `Popcount`, `Bitrev`, `Bcd`, `Scan` | pointwise bits, kernel computation over whole byte tables |
| C53–C54 | `Textsearch` | automaton invariants; `BmExact`: the guard of Boyer–Moore is necessary too, by building a text that fools the table |
| C55 | `Argv` | recursion on the string |
| C56 | `Jhash` | explicit inverses |
| C57 | `Prandom` | linear algebra on bits, invariant under step |
| C58 | `Arc4` | state-machine equality with textbook RC4 |
| C59 | `Digest` | buffer invariant, padding specification |
| C60 | `Crc` | linearity over xor, table generator |
| C61–C67 | `Circle`, `Errptr`, `Bitfield`, `Overflow`, `Strdup`, `Swab`, `Scnprintf` | arithmetic |
| C68–C69 | `Scan` | pointwise bits |
| C70 | `Tokenbucket` | arithmetic; violated after 2^32 intervals |
| C71 | `Prandom` | order of a matrix over GF(2), by kernel computation of powers |
| C72 | `Refcount` | interleaving invariant |
| C73 | `Crc` | burst detection from linearity and invertibility |
| C74 | `Heap` | descent by bits; violated off the last level |
| C75 | `Mpi` | value function |
| C76 | `Fsm` | simulation between the reset and the new machine |
| C77–C78 | `Memalloc` | tiling and coalescing invariants |
| C79 | `Radix` | extremal element lemmas; violated + partial |
| C80 | `Btree` | steps on the sorted list; violated + partial |
| C81 | `Mpi` | limbs as bitmaps, bits of the value function; violated + partial |
| C82 | `Bitops` | interleaving semantics; the log of finished calls is a sequential history of an array of bits |
| C83 | `Bitops` | bytes of memory under both byte orders, bit by bit |
| C84 | `Hashtbl` | chains as sequences (as C18), rows of the table as a function of the list of present nodes |
| C85 | `Errname` | the table as data; bisection (`Bsearch`) on it; violated + partial |
| C86 | `Textsearch` | blocks of text as a function of the offset; KMP proved, Sunday and Boyer-Moore refuted; violated + partial |
| C87 | `Registry` | list nodes in memory (as C17) refine a list of algorithms |
| C88 | `Rounding` | machine words of any width against multiples, ceilings and nearest numbers; violated + partial |
| C89 | `Ctype` | the table as data, both variants of each test against ASCII; violated + partial |
| C90 | `Log` | the buffer as bytes, pieces appended through the formatted print of C67; violated + partial |
| C91 | `*/Debug` | the operations of the seven areas once more, with the checks the default configuration compiles in; equal to the unchecked ones along every history; what each check refuses |
| C92 | `Dlist/Iter`, `Slist/Iter`, `Hlist/Iter` | one loop per family of macros, parameterised by direction, start and body; a general invariant of the removal-safe loop, instantiated with deletion and moving |
| C93 | `Titer/*`, `Heap/Post`, `Rbtree/Post` | memory in which nodes can be given back and reading such a node is an error; induction over the tree with a general successor of its top node; red-black trees and heaps are represented by such trees |
| C94 | `Life/*` | a world of live blocks with owner, address and size, in which every request may be refused; giving back a block twice or to another allocator is an error; permutation reasoning about the live blocks |
| C95 | `Bitmap/Iter` | the twelve iteration macros as one loop over the searches of C45, with an arbitrary body that leaves the bits ahead alone; the list of wanted positions is the specification |
| C96 | `Atomic/*` | threads taking single accesses in any order; a log of finished calls with an explanation by one-at-a-time effects as invariant; counters, tickets, hand-over and election follow from the log |
| C97 | `Front/*` | several heaps with contents; giving a block to the wrong heap is an error; reachable states of proper calls |
| C98 | `Once/*` | threads reaching the place in any order, the flag being read and written in separate steps; a schedule in which all run it refutes the property under interference |
| C99 | `Strhash/*` | the hash by arithmetic modulo 2^28 as long as nothing is carried out; the searches by induction on the string |
| C100 | `Btree/Iter` | steps on the sorted list in visiting order; loop invariant: elements kept, current one, elements still to come; violated + partial |
| C101 | `Hashmap/Iter` | loop over buckets and chains with a body that changes memory and map; invariant: rows done are filtered, the rest are as at the start; violated + partial |
| C102 | `Ilist/Iter` | invariant kept by every operation with any callback: sound node ring, index links inverse to each other; the scan returns to its start by a counting argument; loop with a body that deletes |
| C103 | `Skiplist/Iter` | loop over one level with a body that deletes by key; reachability is kept; violated + partial |
| C104 | `Radix/Iter` | the plain and removal-safe loops over first/last/next/prev of the radix model; induction over the rest of the walk with the history predicate of C27 as invariant, `…_partial` under the guards of C79, `…_violated` for the others |
| C105 | `Augment/*` | callbacks over the tree model, the summary as a parameter; a local rule for each node is kept by linking, propagating, every rotation and every removal; whole histories; violated + partial |
| C106 | `Byteorder/*` | both headers over a byte memory whose word layout depends on the machine; induction over the array loop; violated + partial |
| C107 | `*/Any.lean`, `ListSort/Count.lean`, `ListSort/Sim.lean` | models that carry the number of calls, with the k-th answer chosen freely; equality with the plain models when answers are consistent; the pending lists of the list sort have sizes given by the binary digits of the count |
| C108 | `Spsc/*.lean` | every shared access is a step of a schedule; invariant: each byte of a running copy is done or still to be done, and the bytes of the two copies lie in disjoint parts of the ring; refinement to a queue whose calls decide at their begin and take effect at their end |
| C109 | `Rbtree/Cached.lean` | invariant over histories: `leftmost` is the head of the in-order sequence; refinement to a sorted list |
| C110 | `Heap/Any.lean` | induction on the level with an oracle for the answers and a log of the questions |
| C111 | `Skiplist/Any.lean` | each level is searched between two neighbours of the level above, so a node is asked about on its own top level only; induction over levels and histories |
| C112 | `Ilist/Any.lean` | the index links are a bijection that fixes all nodes outside the list; a walk along it can meet only its own start again, so it ends within the length of the list |
| C113 | `Align/` | the conversions of C as functions on integers; masks as bit vectors, reduced to remainders |
| C114 | `Skiplist/Mem` | the lists of C111 on the allocators of C94; the live blocks are a permutation of the list's blocks and those of the others |
| C115 | `Refcount/Report` | the reports are functions of the value each call hands out; the invariant of C72 over schedules |
| C116 | `Hashmap/Any` | callbacks told how many callbacks were called before stand for any sequence of answers; invariant on chains without an order on buckets; the list of blocks handed out |
| C117 | `Array/Mem`, `Array/Agree` | the array functions on a ledger of live blocks, shown to do what the arrays of C08 do; one block per array as invariant over histories, with the others' blocks as a frame; every granted request at least doubles the block |
| C118 | `Notifier/Reenter`, `Notifier/Nest` | the loop with callbacks that act on the chain, simulated step by step against a round on lists; the guard is a predicate on the callbacks' actions met by all callbacks that only take themselves out; nested rounds: callbacks as programs, a big-step relation as specification, induction over its derivations |
| C119 | `Textsearch/Cost` | comparisons plus the length of the current match as a potential: every fall shortens the match, every character lengthens it by at most one |
| C120 | `Mpi/History` | bounds on words and lengths for every loop without assuming that the result is right, then induction over the program |
| C121 | `Mpi/Digits` | induction over the digits from the theorems about single calls |
| C122 | `Radix/Height` | invariant that the root has two children unless it is a leaf, and counting the nodes below every child against its elements |
| C123 | `Rbtree/Rotate` | callbacks that note their calls; induction over the rounds with the zipper of C12 and C13 |
| C124 | `Rbtree/Amortized` | a potential over the tree that every round but the last uses up; uniqueness of the tree a heap holds |
| C125 | `Time` | case analysis on the order of the two values; linear arithmetic |
| C126 | `Hashmap/Load` | the effect of a call on sizes alone, and a potential that grows with the distance from a half-full table |
| C127 | `Prandom/Seeds` | the difference of two runs is a run; coprime periods of the four components |
| C128 | `Prandom/Seeds` | induction over the draws |
| C129 | `Levenshtein/Metric` | the answers are least costs (C39); scripts are reversed and composed |
| C130 | `Crc/Errors` | difference of two runs is a run; order of the shift register by bit matrices and its prime factors |
| C131 | `Crc/Errors` | parity of the register as a linear functional |
| C132 | `Action/Model`, `Action/Props` | refinement to a specification on the past events |
| C133 | `Digest/Collision` | the padding is injective and the last block determines the length; induction from the last block backwards |
| C134 | `Cache/Recent` | induction over the history: the tags along the list of the policy are the first `capacity` of the distinct tags, newest first |
| C135 | `Cache/Competitive` | a potential: the entries the other one does not keep, weighted by how recently they were used |
| C136 | `Ratelimit/Stretch` | induction over the calls: the windows that begin in a stretch are more than an interval apart |
| C137 | `Base64/Pieces` | induction over groups; the other cuts by counting the symbols before the first padding character |
| C138 | `Matrix/Laws` | exchange of sums over a commutative ring; a matrix is determined by its entries |
| C139 | `Bloom/News` | every push reported as new lowers the number of clear bits |
| C140 | `Arc4/Indep` | the textbook key stream of C58; every step of the generator can be undone |

No listed property was found impossible to express. Timing and the randomness quality of hashes are not stated as properties.

## 4. What is modelled and what is not

Areas and the source files their `Model.lean` cites:

| area | source files |
|------|--------------|
| `Action` | action.h, errno.h |
| `Align` | align.h |
| `Allocpool` | allocpool.c, allocpool.h |
| `Arc4` | arc4.c, arc4.h |
| `Argv` | argv.c |
| `Array` | array.c, array.h, allocator.c |
| `Ascii85` | ascii85.c, ascii85.h, unaligned.h, bits.h |
| `Atomic` | atomic.h, cmpxchg.h |
| `Augment` | rbtree.h |
| `Base32` | base32.c, base32.h |
| `Base64` | base64.c, base64.h |
| `Bcd` | bcd.c, bcd.h |
| `Bitfield` | bitfield.h |
| `Bitmap` | bitmap.c, bitmap.h, bitwalk.c, bitwalk.h, bitops.h, string.c, bitsperlong.h, math.h |
| `Bitops` | bitops.h, atomic.h, bitops-endian.h, bitflags.h, bits.h |
| `Bitrev` | bitrev.c, bitrev.h |
| `Bloom` | bloom.c, bloom.h, hashtbl.h, bitops.h |
| `Bsearch` | bsearch.h, bsearch.c |
| `Btree` | btree.c, btree-utils.c, btree.h |
| `Byteorder` | byteorder.h, little-endian.h, big-endian.h, unaligned.h, swab.h |
| `Cache` | cache.c, lru.c, lfu.c, cache.h, hashtbl.h |
| `Circle` | circle.h |
| `Crc` | gen-crc.c, crc-inline.h, crc4-inline.h, crc7.c, crc8.c, crc16.c, crc-ccitt.c, crc-itut.c, crc-t10dif.c, crc32.c, crc64.c, crc-rocksoft.c, crc4.c |
| `Ctype` | ctype.h, ctype.c |
| `Digest` | sha1.h, sha2.h, md5.h, sha1.c, sha2.c, sha1-base.h, sha2-base.h, md5.c, md5-base.h |
| `Dlist` | list.h, poison.h |
| `Dword` | dword.h, dword.c |
| `Errname` | errname.c, errname.h, errno.h, types.h |
| `Errptr` | errptr.h, errno.h |
| `Fifo` | fifo.c, fifo.h |
| `Front` | allocator.c, allocator.h |
| `Fsm` | fsm.c, fsm.h, array.c |
| `Hashmap` | hashmap.c, hashmap.h, hashtbl.h, bits.h, hlist.h, allocator.h |
| `Hashtbl` | hashtbl.h, hlist.h |
| `Heap` | heap.c, heap.h, titer.h, poison.h |
| `Hlist` | hlist.h, poison.h |
| `Ilist` | ilist.c, ilist.h |
| `Jhash` | jhash.c, jhash.h, hash.h |
| `Levenshtein` | levenshtein.c |
| `Life` | allocator.c, fifo.c, ringbuf.c, bitmap.c, allocator.h, fifo.h, ringbuf.h, bits.h, math.h, bloom.h, bloom.c, bm.c, kmp.c, sunday.c, textsearch.c, textsearch.h, cache.h, lru.c, lfu.c, cache.c |
| `ListSort` | list-sort.c |
| `Llist` | llist.c, llist.h, cmpxchg.h, slist.h |
| `Log` | log.c, level.c, color.c, log.h |
| `Matrix` | matrix.c, matrix.h, array.c |
| `Memalloc` | memalloc.c, memalloc.h, list.h, align.h |
| `Mpi` | mpi.c, mpi.h, array.h, array.c |
| `Notifier` | notifier.c, macro.h, notifier.h |
| `Once` | once.h |
| `Overflow` | overflow.h |
| `Popcount` | popcount.c, popcount.h |
| `Prandom` | prandom.c, prandom.h |
| `Radix` | radix.c, radix.h, log2.h |
| `Ratelimit` | ratelimit.c, ratelimit.h, time.h |
| `Rbtree` | rbtree.c, rbtree.h, titer.h, poison.h |
| `Refcount` | refcount.h, cmpxchg.h |
| `Registry` | textsearch.c, cache.c, textsearch.h, cache.h |
| `Respool` | respool.c, respool.h |
| `Ringbuf` | ringbuf.c, ringbuf.h |
| `Rounding` | math.h, minmax.h, uplower.h |
| `Scan` | bitops.h, log2.h, bits.h, align.h, builtin-ctz.h, builtin-clz.h, builtin-ffs.h, builtin-ffsuf.h, builtin-fls.h, builtin-flsuf.h |
| `Scnprintf` | scnprintf.c |
| `Segtree` | segtree.h, rbtree.h |
| `Skiplist` | skiplist.c, skiplist.h |
| `Slist` | slist.h, poison.h |
| `Sort` | sort.c |
| `Spsc` | fifo.c, fifo.h |
| `Strdup` | strdup.c, string.h |
| `Strhash` | stringhash.c, string.c |
| `Swab` | swab.h, little-endian.h, unaligned.h |
| `Textsearch` | kmp.c, linear.c, sunday.c, bm.c |
| `Time` | time.h, types.h, macro.h |
| `Titer` | titer.h, heap.c, rbtree.c, rbtree.h, heap.h |
| `Tokenbucket` | tokenbucket.c, tokenbucket.h, time.h, types.h |

Not modelled: the texts the debug checks print, `bfdev_refcnt_report`,
`container_of` arithmetic and all other macro plumbing, per-CPU/architecture overrides outside `asm-generic`, big-endian and 32-bit targets,
weak memory ordering, address-space layout beyond what `allocpool.c` and `memalloc.c` compute, and destructors that only call `free`.

## 5. Where the code and the property disagree

Each row is a theorem with a concrete witness.

| property | theorem | what happens |
|----------|---------|--------------|
| C03 | `Ascii85.ascii85_roundtrip_violated` | **C03 is violated by the code**: four zero bytes encode to `z`, which the decoder rejects (it requires a further group after the shorthand). |
| C06 | `Fifo.record_order_violated` | The code violates C06: with one length byte per record, the second record's length is stored over the first one's (the length is poked at the read index), so two records `[1]`, `[2,3]` written to an empty 8-byte fifo do not come back. |
| C06 | `Fifo.record_order_violated_witness` | What is read back in that case: the first record swallows bytes of the second. |
| C06 | `Fifo.record_length_byte_order_violated` | The code violates C06 for two length bytes even on an empty fifo: the length is written low byte first and read high byte first, so a one-byte record is announced as 256 bytes and the reader is handed more than was written. |
| C06 | `Ringbuf.ringbuf_record_order_violated` | The record variant does not keep records apart: the length byte of the second record is stored at the read index, over the length of the first, so after writing `[1]` and `[2,3]` the first read returns two bytes. |
| C08 | `Array.array_push_violated` | **C08 fails** for huge requests: the byte count wraps, so a push of `2^61 + 1` eight-byte elements succeeds with room for a single one, and a push of `2^61` elements frees the block under a live array. |
| C10,C107 | `Sort.sort_violated` | **C10 fails** for elements of `2^32` bytes: the lowest-bit mask is passed as `unsigned int` and becomes zero, so the parent computation leaves the element grid and the sort touches memory that is not an element. |
| C100 | `Btree.reverse_violated` | Disagreement: over a tree with key 0 the backward iteration ends after that key, although there are more; over a tree that was emptied it reads outside the node. |
| C101 | `Hashmap.removal_violated` | C101 fails: deleting every entry inside the removal-safe iteration. Three entries share a bucket; the first deletion leaves fewer than a quarter of the minimum of sixteen buckets in use, so the buckets are rebuilt, which reverses the chain under the cursor. The third entry is never visited and is still in the map afterwards. |
| C103 | `Skiplist.duplicate_violated` | C103 fails: two nodes have the key 5. The loop deletes its cursor, node 400, by that key, and what is deleted and freed is the node behind it, where the loop is going next. |
| C104 | `Radix.walk_violated` | C104 fails beyond 8192 bytes: the step to element 8192 gives its pointer with the index 16128, and element 8448 is missed. |
| C104 | `Radix.start_violated` | C104 fails when the first block is empty: element 256 is missed. |
| C105 | `Augment.insert_augmented_violated` | C105 violated by `bfdev_rb_insert_augmented`: it links the node and rebalances but has no summary above the node brought up to date. Every node sets its own count to 1 before it is inserted; after the second one the root still counts 1. |
| C106 | `Byteorder.generic_violated` | C106 violated on big-endian machines: the generic header takes little-endian.h on every machine, so a value converted to little-endian order and stored lies in memory most significant byte first, and the big-endian conversions swap. |
| C113 | `Align.low_violated` | C113 fails in every other case: an alignment of type `unsigned int` and a value of a 64-bit type, or a pointer, that does not fit in 32 bits. The upper half of the value is cleared. |
| C113 | `Align.high_violated` | C113 fails for alignments of type `unsigned int` and 64-bit values beyond. |
| C113 | `Align.high_overflow_violated` | C113 fails where the sum does not fit in the common type: undefined behaviour if that is signed, a result that is too small otherwise. |
| C113 | `Align.pointer_violated` | C113 fails for every pointer from 4 GiB on and an alignment of type `unsigned int`: the pointer loses its upper half. |
| C115 | `Refcount.add_overflow_violated` | **C115 fails** for counters that overflow: the sum that is tested is undefined behaviour itself, so that a compiler may leave the test out. |
| C115 | `Refcount.addnz_report_violated` | **C115 fails** for conditional acquisitions of a counter that is zero: that is what they are for, they acquire nothing and answer so, and an overflow is reported all the same. |
| C115 | `Refcount.addnz_overflow_violated` | **C115 fails** for conditional acquisitions that overflow: the sum is undefined behaviour. |
| C127 | `Prandom.seeds_differ_violated` | C127 is false: every seed gives the same results as the one that differs in bit 32 only. |
| C131 | `Crc.odd_bits_violated` | **C131 fails** for CRC-7, CRC-T10-DIF and CRC-32: some errors of three, eleven and fifteen bits in a short message go unnoticed, whatever the initial value. |
| C18 | `Hlist.next_add_violated` | C18, witness: adding a node between two others leaves the successor's back reference on the old predecessor, so deleting the successor afterwards also drops the new node: the chain 1, 3, 2 minus 2 is left as just 1. |
| C18 | `Hlist.prev_add_violated` | C18, in every chain: adding a node before another one turns the chain into a cycle; a walk from the head never ends. |
| C20 | `Llist.llist_del_reuse_violated` | Removing single nodes while nodes are reused is not safe: thread 0 stops before its exchange, thread 1 takes nodes 1 and 2 and pushes 1 again; thread 0 then puts node 2, which thread 1 owns, back on the list, and it is handed out a second time. |
| C21 | `Refcount.addnz_lost_violated` | C21 fails: when another thread takes a reference between the read and the exchange, the call reports success without having acquired anything. |
| C21 | `Refcount.addnz_twice_violated` | C21 fails: when another thread drops a reference after the successful exchange, the call takes a second reference. |
| C21 | `Refcount.addnz_zero_violated` | C21 fails: the call can report zero although it added. |
| C23 | `Bloom.flush_violated` | C23 fails for flush: only the first eighth of the bitmap is cleared (the number of words is passed as a number of bytes), so an element whose bits all lie behind it is found after the flush if and only if it was found before. |
| C24 | `Skiplist.refused_violated` | C24. An insertion that is refused memory after drawing a level above all others leaves an empty top level, and the next search reads the result of a comparison that was never made. |
| C25 | `Ilist.ilist_violated` | C25 fails: add two equal nodes and a larger one, delete the first of the equal ones, add a node in between: it ends up after the larger one. The second equal node never enters the index when the first one leaves. |
| C27 | `Radix.bounds_violated` | With only element 0 in the tree, searching at 256 reads behind the leaf. |
| C27 | `Radix.alias_violated` | With elements 0 and 256 in the tree, element 0 is also found at 8192. |
| C27 | `Radix.free_alias_violated` | … and freeing at 8192, where nothing is, removes element 0. |
| C27 | `Radix.high_violated` | An element at `2^63` can be allocated but neither searched nor freed: the array of parents is too small. |
| C28 | `Btree.remove_zero_violated` | In a tree whose only element was removed, removing key 0 reads outside the node. |
| C28 | `Btree.remove_pointer_violated` | Removing an absent key that equals the first pointer of a full node reads outside the node. |
| C28 | `Btree.update_zero_violated` | An update of the absent key 0 is reported as done. |
| C28 | `Btree.update_null_violated` | After storing `NULL` under key 2 and removing key 3, key 1 is lost. |
| C28 | `Btree.odd_violated` | With an odd number of keys in a node, a split loses a key. |
| C29 | `Segtree.segtree_query_violated` | **C29 is violated**: after the insertion of the intervals [10, 90], [5, 95] and [7, 93] the search for an interval that meets [94, 94] finds none, although [5, 95] does. |
| C30 | `Memalloc.huge_violated` | C30. A request just below 2^64 bytes is rounded to zero and granted in a pool of 1024 bytes. |
| C30 | `Memalloc.align_violated` | C30. Blocks are not aligned to 32, the granularity of sizes, nor to 16, even in a pool that is. |
| C31 | `Allocpool.arena_violated` | C31 fails for a request whose size passes the top of the address space: the end wraps, the request is granted, the next block overlaps an earlier one. |
| C32 | `Cache.reset_violated` | C32 fails after a reset: one reference is taken before it and one after, and giving back the one that was taken after the reset does not release the entry, because the reset left the old count. |
| C32 | `Cache.rename_violated` | C32 fails when an entry is renamed to a tag that is resident: `bfdev_cache_set` succeeds and two entries carry the tag. |
| C32 | `Cache.stale_violated` | C32 fails for nodes handed out before a reset: deleting one is not refused, as it is in a new cache, but undefined. |
| C34 | `Fsm.atomic_violated` | C34 fails with crossing transitions: entering the second state fails, yet the current state has changed. |
| C34 | `Fsm.nochange_violated` | C34 fails with crossing transitions: "no change" is returned although the state changed. |
| C34 | `Fsm.stack_atomic_violated` | C34 fails for the stack: a callback fails after a pop, the current state stays and the popped state is lost. |
| C34 | `Fsm.inherited_exit_violated` | A transition inherited from an ancestor leaves the ancestor, not the current state: state 0 has an exit trigger that is not called. |
| C35 | `Tokenbucket.tokenbucket_zero_violated` | **C35 is violated when the clock starts at zero:** a stored time of zero is taken for a bucket that was never used, so each request at time zero fills the bucket again; a bucket of capacity one grants every one of any number of simultaneous requests. |
| C37 | `Respool.release_all_violated` | C37 fails for releasing everything: no node is unlinked, so a pool that held something still holds all of it, and releasing everything again calls every callback a second time. |
| C38 | `Matrix.mul_violated` | When the number of entries of the product, counted in `unsigned int`, wraps to zero, the entries are stored outside the array. |
| C38 | `Matrix.trans_violated` | C38 fails for transposition: the copy goes the wrong way. Into another matrix of any contents, the destination gets the right dimensions but keeps its old entries (or the uninitialised ones), and the source is overwritten with them. |
| C38 | `Matrix.data_violated` | C38 fails for the access to one entry: of a matrix with entries it points to the product of the indices (the entry of row 0 and column 0 for the whole first row and first column). |
| C39 | `Levenshtein.levenshtein_violated` | C39 fails: the last cell of the first row is never written before it is read, and the result depends on what the allocator left there. Turning `abc` into `x` costs 3; with a zeroed workspace the answer is 1. |
| C40 | `Mpi.add_lost_carry_violated` | C40 fails: adding [1, 1, 1] and [MAX, MAX, 1] drops the carry out of the second limb; the sum comes out too small by 2^128. |
| C40 | `Mpi.add_lost_borrow_violated` | C40 fails: subtracting [1, MAX, 1] from [0, 0, 3] drops the borrow out of the second limb; the difference comes out too large by 2^128. |
| C40 | `Mpi.add_alias_violated` | C40 fails: adding into the second operand when its full block of 32 limbs has to grow reads the block that was given back. |
| C40 | `Mpi.addi_violated` | C40 fails for every negative number below `-vi`: adding `vi` with success leaves a number that is not negative. |
| C41 | `Mpi.mul_lost_carry_violated` | C41 fails: the row of a limb 1 is added with a lost carry. |
| C41 | `Mpi.mul_alias_violated` | C41 fails: multiplying into one of two operands of two limbs overwrites limbs that are still to be read. |
| C41 | `Mpi.square_refused_violated` | C41 fails: squaring in place reports success although the block for the result was refused and the operand is unchanged. |
| C42 | `Mpi.div_zero_violated` | C42 fails: dividing zero by zero is not rejected; it gives 1 remainder 0. |
| C42 | `Mpi.divi_zero_violated` | C42 fails: dividing zero by a zero word is not rejected either. |
| C42 | `Mpi.div_unnormalised_violated` | C42 fails: with a divisor of two limbs whose top bit is clear the quotient is wrong. |
| C42 | `Mpi.div_sign_violated` | C42 fails: dividing in place by a negative number gives the remainder the sign of the quotient: -7 = 3 * -2 + 1 is reported. |
| C42 | `Mpi.divi_refused_violated` | C42 fails: a remainder that cannot be stored is dropped and success reported: 7 = 3 * 2 + 0. |
| C43 | `Mpi.cmp_violated` | C43 fails for zeros: reading in -5 and multiplying by 0 gives an object that denotes 0 and compares below a fresh object, and below the word 0. |
| C44 | `Dword.udivd_violated` | C44 fails in the whole of that box: the quotient is zero, the code answers one. |
| C45 | `Bitmap.bitmap_equal_violated` | Disagreement: with a bit count known to the compiler and either at most 64 or a multiple of 8, `bfdev_bitmap_equal` says exactly the opposite. |
| C45 | `Bitmap.bitmap_or_equal_violated` | Disagreement: for a bit count known to be at most 64, `bfdev_bitmap_or_equal` says exactly the opposite. |
| C46 | `Bitmap.shr_violated` | Disagreement: shifting a 4-bit bitmap with bit 0 set right by one gives 2 instead of 0, and shifting 68 bits right by one moves the top word left. |
| C48 | `Bitmap.find_zero_violated` | Disagreement: with a known size of 64, zeros are never found from either end, whatever the word. |
| C50 | `Bitrev.bitrev_const_violated` | **C50 fails** for the 32- and 64-bit constant variants: a single bit lands in the wrong place. |
| C53 | `Textsearch.kmp_empty_violated` | C53 fails for the empty pattern: the first character of the pattern is read although there is none. |
| C54 | `Textsearch.bm_violated` | C54 fails: the pattern `aa` is not found in `xaa`, where it occurs at 1. |
| C54 | `Textsearch.bm_periodic_violated` | C54 fails for every pattern that repeats, from its end on, with a period shorter than itself: it is missed where it follows its own last characters. |
| C55 | `Argv.split_violated` | C55 fails from 2^29 - 1 words on the 32-bit size of the pointer block wraps and the pointers are stored outside it. |
| C56 | `Jhash.hash_zero_bits_violated` | **C56 is violated at width zero:** the only value below 2^0 is zero, but the shift by the whole word is undefined, for every value. |
| C60 | `Crc.crc64_violated` | C60 fails for the 64-bit checksums: for every message of 8 to 15 bytes at an aligned address and every initial value with a non-zero half the result is wrong. |
| C60 | `Crc.crc4_violated` | C60 fails for CRC-4 when the number of bits is no multiple of eight: the last bits are preceded by zeros that the definition does not have. |
| C61 | `Circle.space_end_violated` | C61 fails for `BFDEV_CIRCLE_SPACE_END`: it uses an undeclared name. With a caller's `end` of 0 or 100, at an empty ring of 8 cells, it reports 1 cell or 7 cells, where 4 fit before the end (7 cross it). |
| C63 | `Bitfield.fit_violated` | The fit test accepts values that do not fit: 2 in the one-bit field at the top of a 32-bit register. |
| C67 | `Scnprintf.error_violated` | C67 fails when formatting fails: for every buffer size from 2 to 2^31 an error is reported as `size - 1` characters stored. |
| C68 | `Scan.nth_bit_violated` | **C68 fails** for the all-ones word: `flnsp` counts from the wrong end, and a rank beyond the word is returned as is. |
| C70 | `Tokenbucket.tokenbucket_idle_violated` | **C70 is violated after a long idle time:** one token held plus 2^32 - 1 owed wrap to none, and the request is refused. |
| C73 | `Crc.crc64_burst_violated` | C73 fails for the 64-bit checksums: at an aligned address two messages that differ only in their first eight bytes, one burst of 64 bits, get the same value whatever follows. |
| C74 | `Heap.heap_find_violated` | **C74 is violated**: with four nodes in the heap, the lookup of node 1 does not return the root but NULL, and the lookup of node 3 returns NULL although there is such a node. |
| C76 | `Fsm.reset_prev_violated` | C76 fails for the previous state: reset leaves the one of before. |
| C77 | `Memalloc.shrink_violated` | C77. Shrinking a block to 10 bytes fails when the rest of the pool is used up. |
| C79 | `Radix.first_violated` | With element 256 alone in the tree, there seems to be no first element. |
| C79 | `Radix.next_violated` | The step from element 7936 to element 8192 stores the offset 16128, where nothing is: the next step ends the walk. |
| C79 | `Radix.refused_violated` | Once memory was refused in the middle of an allocation, asking for the last element runs into `BFDEV_BUG_ON`. |
| C79 | `Radix.index_violated` | The index of an element of 24 bytes is not recovered from its offset. |
| C79,C104 | `Radix.prev_violated` | The step down from the lowest element 256 gives a pointer behind the first leaf. |
| C80 | `Btree.last_violated` | In a tree whose only element was removed, asking for the last element reads outside the node. |
| C80 | `Btree.prev_zero_violated` | From key 0 there is no step back although larger keys are there. |
| C80 | `Btree.next_absent_violated` | From the absent key 7 the step forward skips key 5. |
| C81 | `Mpi.shri_violated` | Disagreement: `bfdev_mpi_shri` hands the distance on as a 32-bit number, so shifting right by 2^32 leaves the number as it is. |
| C81 | `Mpi.shli_violated` | Disagreement: `bfdev_mpi_shli` rounds the distance up to limbs in 64 bits, so shifting left by 2^64 - 1 asks for no limb, reports success and leaves zero. |
| C81 | `Mpi.bseti_violated` | Disagreement: `bfdev_bit_set` takes a 32-bit number, so setting bit 2^32 of zero sets bit 0 instead, and leaves leading zero limbs. |
| C85 | `Errname.errname_violated` | C85 fails for the smallest `int`: its negation is undefined. |
| C86 | `Textsearch.sunday_repeat_violated` | C86 fails with Sunday: whatever the text, searching again reports the same occurrence again, since the search does not move the offset. |
| C86 | `Textsearch.bm_repeat_violated` | C86 fails with Boyer-Moore likewise. |
| C86 | `Textsearch.sunday_blocks_violated` | C86 fails with Sunday for texts in several blocks: the distance to go on at is kept for the next block, so an occurrence in it is missed. |
| C86 | `Textsearch.bm_blocks_violated` | C86 fails with Boyer-Moore for texts in several blocks likewise. |
| C88 | `Rounding.div_round_up_violated` | C88 fails in every other case: where dividend plus divisor less one wraps, the division rounding up gives 0, which is never the ceiling. |
| C88 | `Rounding.div_closest_unsigned_violated` | C88 fails in every other unsigned case: where the sum wraps the quotient is 0, which is not the closest. |
| C88 | `Rounding.div_closest_signed_violated` | C88 fails for signed numbers too: the closest quotient of the greatest `int` and 2 is undefined behaviour. |
| C89 | `Ctype.dynamic_violated` | C89 fails at run time: 0 is not a hexadecimal digit, tab is not blank, vertical tab is. |
| C89 | `Ctype.const_violated` | C89 fails at compile time for every character below the class: the difference is negative and counts as in range. |
| C89 | `Ctype.const_letters_violated` | C89 fails at compile time for the classes of letters: a digit counts as a letter, `:` as a hexadecimal digit, `!` as alphanumeric and not as punctuation. |
| C90 | `Log.log_violated` | C90 fails for loggers with a default level above 8: a message without a level reads behind the table of level names. |
| C94 | `Life.queue_violated` | **C94 is violated**: a request for 2^24 elements of 2^40 + 1 bytes is granted with a block of 2^24 bytes, because the product wraps. |
| C94 | `Life.queue_huge_violated` | **C94 is violated**: a request for more than 2^63 elements is not refused but undefined. |
| C94 | `Life.bloom_violated` | **C94 is violated**: a filter of 2^32 - 1 bits is granted with no bits at all, because the rounded capacity wraps to zero. |
| C94 | `Life.search_violated` | **C94 is violated**: for a pattern of 2^30 bytes the table of the Boyer-Moore and the Knuth-Morris-Pratt search is given no room at all: its size wraps to zero, so the pattern begins where the table begins, and the block ends before the table does. |
| C95 | `Bitmap.for_each_zero_violated` | Disagreement: over the zero bits of a bitmap whose size is known to be 64 nothing is visited, although every bit is zero. |
| C97 | `Front.front_violated` | Disagreement: with a table that gives `alloc` and `free` only, a block that was cleared comes from the C library and is handed to the user's `free`. |
| C97 | `Front.front_array_violated` | Disagreement: an array of more bytes than there are is granted with two. |
| C98 | `Once.once_violated` | Disagreement: two threads that reach the place at the same time both run the function; for any number of threads there is a schedule in which all do. |
| C99 | `Strhash.pjw_violated` | Disagreement: the eight letters `iiiiiciz` hash to a number that does not fit the 32 bits the header promises, and so does every single byte above 127. |
|  | `Array.overflow_violated` | **C117 fails** without the guard: asking an array of 8-byte elements that has a block for `2^61` elements wraps the size to zero, which frees the block, while the array keeps pointing to it; the call reports that memory is short, and releasing the array gives the block back a second time. |
|  | `Levenshtein.triangle_violated` | C129 is false for cheap swaps: with all costs 1, `ca` is at distance 1 from `ac`, which is at distance 1 from `abc`, and yet `ca` is at distance 3 from `abc`. |
|  | `Mpi.improper_violated` | **C120 fails** for bit numbers of 2^32 and more: setting one leaves a number with leading zero limbs. |
|  | `Notifier.next_unregistered_violated` | **C118 fails** if a callback unregisters the node behind it: that node is called all the same, although it is no longer registered, and, as its links now lead to itself, again and again, as many times as the caller allows. |
|  | `Radix.height_violated` | **C122** fails after a refusal: an allocation that could not be completed leaves the levels it had added, although nothing is stored there. |

Further disagreements, stated inside partial theorems' guards: `bfdev_strndup` is right only for the bound `length + 1` (C65);
`bitwalk`'s `comp_set`/`comp_clr` and constant shifts by 64 or more (C45–C47); Sunday search reads one byte past the block and byte 255
is outside its table, and neither it nor Boyer–Moore update the offset for repeated search (C54); `argv` with 2^29-1 words wraps the
size of the pointer block (C55).

## 6. Checking the axioms

`vcheck` rebuilds the last commit and prints the axioms of every theorem in `MANIFEST.json`. By hand: in `lean/`, a file with
`import Verif` and `#print axioms Bfdev.Btree.lookup_partial` (for instance), run by `lake env lean`, prints a subset of
`propext, Classical.choice, Quot.sound`.

## 7. Tests against wrong programs

`seeded/LOG.jsonl` lists the edits tried on scratch copies of the models: definition, edit, the claim it breaks, the theorems that no
longer prove, and the theorems tightened because an edit had survived.
