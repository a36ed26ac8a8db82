import Verif.Base64.Props
import Verif.Base32.Props
import Verif.Ascii85.Props
import Verif.Fifo.Props
import Verif.Ringbuf.Props
import Verif.Ringbuf.Record
import Verif.Popcount.Props
import Verif.Bitrev.Props
import Verif.Bcd.Props
import Verif.Scan.Props
import Verif.Array.Props
import Verif.Bsearch.Props
import Verif.Sort.Props
import Verif.Dlist.Props
import Verif.ListSort.Props
import Verif.Hlist.Props
import Verif.Slist.Props
import Verif.Bitmap.Props
import Verif.Bitmap.LogicProps
import Verif.Bitmap.ShiftProps
import Verif.Bitmap.RangeProps
import Verif.Rbtree.Props
import Verif.Circle.Props
import Verif.Errptr.Props
import Verif.Bitfield.Props
import Verif.Overflow.Props
import Verif.Strdup.Props
import Verif.Scnprintf.Props
import Verif.Swab.Props
import Verif.Tokenbucket.Props
import Verif.Ratelimit.Props
import Verif.Jhash.Props
import Verif.Prandom.Props
import Verif.Arc4.Props
import Verif.Respool.Props
import Verif.Ilist.Props
import Verif.Notifier.Props
import Verif.Bloom.Props
import Verif.Allocpool.Props
import Verif.Refcount.Props
import Verif.Llist.Props
import Verif.Dword.Props
import Verif.Matrix.Props
import Verif.Levenshtein.Props
import Verif.Argv.Props
import Verif.Textsearch.Props
import Verif.Textsearch.BmExact
import Verif.Crc.Props
import Verif.Digest.Props
import Verif.Hashmap.Props
import Verif.Hashmap.Iter
import Verif.Heap.Props
import Verif.Segtree.Props
import Verif.Segtree.Local
import Verif.Segtree.Delete
import Verif.Segtree.Insert
import Verif.Segtree.History
import Verif.Mpi.DivProps
import Verif.Mpi.BitProps
import Verif.Fsm.Props
import Verif.Cache.Props
import Verif.Cache.Reset
import Verif.Memalloc.Props
import Verif.Skiplist.Props
import Verif.Radix.Props
import Verif.Radix.Iter
import Verif.Btree.Props
import Verif.Btree.Iter
import Verif.Bitops.Props
import Verif.Hashtbl.Props
import Verif.Errname.Props
import Verif.Textsearch.Repeat
import Verif.Registry.Props
import Verif.Rounding.Props
import Verif.Ctype.Props
import Verif.Log.Props
import Verif.Dlist.Debug
import Verif.Slist.Debug
import Verif.Hlist.Debug
import Verif.Rbtree.Debug
import Verif.Heap.Debug
import Verif.Memalloc.Debug
import Verif.Ilist.Debug
import Verif.Dlist.Iter
import Verif.Slist.Iter
import Verif.Hlist.Iter
import Verif.Titer.Props
import Verif.Life.Props
import Verif.Bitmap.Iter
import Verif.Atomic.Props
import Verif.Front.Props
import Verif.Once.Props
import Verif.Strhash.Props
import Verif.Ilist.Iter
import Verif.Skiplist.Iter
import Verif.Augment.Props
import Verif.Byteorder.Props
import Verif.Sort.Any
import Verif.Bsearch.Any
import Verif.ListSort.Any
import Verif.Rbtree.Any
import Verif.Spsc.Props
import Verif.Rbtree.Cached
import Verif.Heap.Any
import Verif.Skiplist.Any
import Verif.Ilist.Any
import Verif.Align.Model
import Verif.Align.Spec
import Verif.Align.Props
import Verif.Skiplist.Mem
import Verif.Refcount.Report
import Verif.Hashmap.Any
import Verif.Array.Mem
import Verif.Array.Agree
import Verif.Notifier.Reenter
import Verif.Fsm.Whole
import Verif.Textsearch.Cost
import Verif.Notifier.Nest
import Verif.Mpi.History
import Verif.Mpi.Digits
import Verif.Radix.Height
import Verif.Heap.Post
import Verif.Rbtree.Post
import Verif.Rbtree.Rotate
import Verif.Rbtree.Amortized
import Verif.Time.Props
import Verif.Hashmap.Load
import Verif.Prandom.Seeds
import Verif.Levenshtein.Metric
import Verif.Crc.Errors
import Verif.Action.Model
import Verif.Action.Props
import Verif.Digest.Collision
import Verif.Cache.Recent
import Verif.Cache.Competitive
import Verif.Ratelimit.Stretch
import Verif.Base64.Pieces
import Verif.Matrix.Laws
import Verif.Bloom.News
import Verif.Arc4.Indep
