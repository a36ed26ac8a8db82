import Verif.Life.Model
import Verif.Scan.Props
/-!
C94: creating and destroying objects balance, whatever requests the allocators refuse.
-/
set_option linter.unusedSimpArgs false
namespace Bfdev.Life
open Scan (Word)

/-- A world as allocators keep it: live blocks have different addresses other than NULL, and new ones get addresses not in use. -/
structure Ok (w : World) : Prop where
  pos : 0 < w.next
  below : ∀ b ∈ w.live, 0 < b.addr ∧ b.addr < w.next
  nodup : (w.live.map (·.addr)).Nodup

theorem malloc_spec {w : World} (h : Ok w) (alloc : Nat) (size : Nat) :
    Ok (malloc w alloc size).1 ∧ (malloc w alloc size).1.fail = w.fail ∧
    ((malloc w alloc size).2 = 0 ∧ (malloc w alloc size).1.live = w.live ∧ (size = 0 ∨ w.fail w.calls = true) ∨
     (malloc w alloc size).2 ≠ 0 ∧ size ≠ 0 ∧ (malloc w alloc size).1.live = ⟨alloc, (malloc w alloc size).2, size⟩ :: w.live) := by
  unfold malloc
  by_cases h0 : size = 0
  · simp only [if_pos h0]
    exact ⟨h, trivial, Or.inl ⟨trivial, trivial, Or.inl h0⟩⟩
  · rw [if_neg h0]
    by_cases h1 : w.fail w.calls = true
    · simp only [if_pos h1]
      exact ⟨⟨h.pos, h.below, h.nodup⟩, trivial, Or.inl ⟨trivial, trivial, Or.inr h1⟩⟩
    · rw [if_neg h1]
      refine ⟨⟨?_, ?_, ?_⟩, rfl, Or.inr ⟨?_, h0, rfl⟩⟩
      · show 0 < w.next + 1; omega
      · intro b hb
        have := h.pos
        simp only [List.mem_cons] at hb
        rcases hb with rfl | hb
        · exact ⟨by simpa using h.pos, by simp⟩
        · have := h.below b hb; exact ⟨this.1, by show b.addr < w.next + 1; omega⟩
      · simp only [List.map_cons, List.nodup_cons]
        refine ⟨fun hm => ?_, h.nodup⟩
        obtain ⟨b, hb, e⟩ := List.mem_map.1 hm
        have := h.below b hb; omega
      · have := h.pos; show w.next ≠ 0; omega

/-- Giving back a live block to the allocator it came from. -/
theorem free_spec {w : World} (h : Ok w) {b : Block} {R : List Block} (hp : w.live.Perm (b :: R)) :
    ∃ w', free w b.alloc b.addr = some w' ∧ Ok w' ∧ w'.live.Perm R ∧ w'.fail = w.fail := by
  have hb : b ∈ w.live := hp.mem_iff.2 (by simp)
  have h0 : b.addr ≠ 0 := by have := h.below b hb; omega
  have hnd : ((b :: R).map (·.addr)).Nodup := (hp.map _).nodup_iff.1 h.nodup
  simp only [List.map_cons, List.nodup_cons] at hnd
  have hany : (w.live.any fun b' => b'.alloc == b.alloc && b'.addr == b.addr) = true := List.any_eq_true.2 ⟨b, hb, by simp⟩
  have hR : (b :: R).filter (fun b' => !(b'.alloc == b.alloc && b'.addr == b.addr)) = R := by
    rw [List.filter_cons_of_neg (by simp)]
    refine List.filter_eq_self.2 fun c hc => ?_
    have : c.addr ≠ b.addr := fun e => hnd.1 (List.mem_map.2 ⟨c, hc, e⟩)
    simp [this]
  have hpf := hp.filter (fun b' => !(b'.alloc == b.alloc && b'.addr == b.addr))
  rw [hR] at hpf
  refine ⟨{ w with live := w.live.filter fun b' => !(b'.alloc == b.alloc && b'.addr == b.addr) }, by unfold free; rw [if_neg h0, if_pos hany], ⟨h.pos, fun c hc => ?_, ?_⟩, hpf, rfl⟩
  · exact h.below c (List.mem_filter.1 hc).1
  · exact (hpf.map _).nodup_iff.2 hnd.2

/-- Giving back a block that is not live, or not to its allocator, fails. -/
theorem free_bad {w : World} {alloc addr : Nat} (h0 : addr ≠ 0) (h : ∀ b ∈ w.live, b.alloc = alloc → b.addr ≠ addr) : free w alloc addr = none := by
  unfold free
  rw [if_neg h0, if_neg]
  simp only [List.any_eq_true, not_exists, not_and, Bool.and_eq_true, beq_iff_eq]
  exact fun b hb h1 h2 => h b hb h1 h2

/-- The least power of two not below `n`. -/
def LeastPow2 (n r : Nat) : Prop := (∃ k, r = 2 ^ k) ∧ n ≤ r ∧ ∀ j, n ≤ 2 ^ j → r ≤ 2 ^ j

theorem roundup {size : Nat} (h : size ≤ 2 ^ 63) :
    ∃ r, Scan.pow2Roundup (BitVec.ofNat 64 size) = some r ∧ (size = 0 → r.toNat = 0) ∧ (0 < size → LeastPow2 size r.toNat) := by
  have hs : (BitVec.ofNat 64 size).toNat = size := by
    rw [BitVec.toNat_ofNat]; exact Nat.mod_eq_of_lt (by omega)
  by_cases h0 : size = 0
  · have := (Scan.pow2_roundup_outside (BitVec.ofNat 64 size)).1 (by omega)
    exact ⟨_, this, fun _ => by omega, fun _ => by omega⟩
  · obtain ⟨r, k, e1, _, e2, e3, e4⟩ := Scan.pow2_roundup_correct (BitVec.ofNat 64 size) (by omega) (by omega)
    rw [hs] at e3 e4
    exact ⟨r, e1, fun h => absurd h h0, fun _ => ⟨⟨k, e2⟩, by omega, fun j hj => by rw [e2]; exact e4 j hj⟩⟩

theorem LeastPow2.lt_two {n r : Nat} (h : LeastPow2 n r) (hn : 0 < n) : r < 2 ↔ n < 2 := by
  constructor
  · intro hr; have := h.2.1; omega
  · intro hn2
    have := h.2.2 0 (by simp; omega)
    simp at this; omega

/-! ## Queues and ring buffers -/

/-- C94, queues and ring buffers. A request for fewer than two elements is refused as invalid; a refused request for memory leaves no memory behind;
otherwise the object holds the least power of two of elements not below the request, in one new block with room for all of them as long as their
size in bytes is below 2^64; giving it back leaves the memory as it was. -/
theorem queue_partial {w : World} (h : Ok w) (q : Queue) (alloc : Nat) (esize size : Nat) (hs : size ≤ 2 ^ 63) :
    ∃ w' q' rc, queueAlloc w q alloc esize size = some (w', q', rc) ∧ Ok w' ∧
      (rc = -22 ∧ size < 2 ∧ w' = w ∧ q' = q ∨
       rc = -12 ∧ 2 ≤ size ∧ w'.live = w.live ∧ (∀ n, LeastPow2 size n → esize * n < 2 ^ 64 → esize ≠ 0 → w.fail w.calls = true) ∨
       rc = 0 ∧ 2 ≤ size ∧ LeastPow2 size (q'.mask + 1) ∧ q'.inn = 0 ∧ q'.out = 0 ∧ q'.esize = esize ∧ q'.alloc = alloc ∧
        (∃ bytes, w'.live = ⟨alloc, q'.data, bytes⟩ :: w.live ∧ (esize * (q'.mask + 1) < 2 ^ 64 → bytes = esize * (q'.mask + 1)))) := by
  obtain ⟨r, hr, hr0, hr1⟩ := roundup hs
  unfold queueAlloc
  rw [hr]
  simp only [Option.bind_eq_bind, Option.bind_some]
  by_cases hlt : r.toNat < 2
  · rw [if_pos hlt]
    refine ⟨w, q, -22, rfl, h, Or.inl ⟨rfl, ?_, rfl, rfl⟩⟩
    by_cases h0 : size = 0
    · omega
    · exact ((hr1 (by omega)).lt_two (by omega)).1 hlt
  · rw [if_neg hlt]
    have h0 : 0 < size := by
      rcases Nat.eq_zero_or_pos size with h0 | h0
      · have := hr0 h0; omega
      · exact h0
    have hl := hr1 h0
    have h2 : 2 ≤ size := by
      have := mt (hl.lt_two h0).2 hlt; omega
    have hm := malloc_spec h alloc (esize * r.toNat % 2 ^ 64)
    rw [show malloc w alloc (esize * r.toNat % 2 ^ 64) = mallocArray w alloc r.toNat esize from rfl] at hm
    obtain ⟨o1, _, ⟨e1, e2, e3⟩ | ⟨e1, e2, e3⟩⟩ := hm
    · simp only [if_pos e1]
      refine ⟨_, _, _, rfl, o1, Or.inr (Or.inl ⟨rfl, h2, e2, fun n hn hb he => ?_⟩)⟩
      have hnr : n = r.toNat := by
        obtain ⟨k, hk⟩ := hl.1
        obtain ⟨j, hj⟩ := hn.1
        have a1 := hl.2.2 j (by rw [← hj]; exact hn.2.1)
        have a2 := hn.2.2 k (by rw [← hk]; exact hl.2.1)
        omega
      rcases e3 with e3 | e3
      · rw [← hnr, Nat.mod_eq_of_lt hb] at e3
        have := hn.2.1
        rcases Nat.mul_eq_zero.1 e3 with e | e
        · exact absurd e he
        · omega
      · exact e3
    · simp only [if_neg e1]
      refine ⟨_, _, _, rfl, o1, Or.inr (Or.inr ⟨rfl, h2, ?_, rfl, rfl, rfl, rfl, _, e3, ?_⟩)⟩
      · rw [show r.toNat - 1 + 1 = r.toNat by omega]; exact hl
      · intro hb
        rw [show r.toNat - 1 + 1 = r.toNat by omega] at hb ⊢
        exact Nat.mod_eq_of_lt hb

/-- C94. Giving back a queue or ring buffer gives back its block and empties the object. -/
theorem queue_free {w : World} (h : Ok w) (q : Queue) {bytes : Nat} {R : List Block} (hp : w.live.Perm (⟨q.alloc, q.data, bytes⟩ :: R)) :
    ∃ w', queueFree w q = some (w', ⟨q.alloc, 0, 0, 0, 0, 0⟩) ∧ Ok w' ∧ w'.live.Perm R := by
  obtain ⟨w', e, o, p, _⟩ := free_spec h hp
  exact ⟨w', by simp only [queueFree]; simp only at e; rw [e]; rfl, o, p⟩

/-- Doing so a second time does nothing. -/
theorem queue_free_again (w : World) (alloc : Nat) : queueFree w ⟨alloc, 0, 0, 0, 0, 0⟩ = some (w, ⟨alloc, 0, 0, 0, 0, 0⟩) := rfl

def exWorld : World := ⟨[⟨9, 3, 100⟩], 4, fun n => n == 2, 0⟩
theorem exWorld_ok : Ok exWorld := ⟨by decide, by decide, by decide⟩
def exQueue : Queue := ⟨0, 0, 0, 0, 0, 0⟩
example : (queueAlloc exWorld exQueue 7 12 5).map (fun r => (r.1.live, r.2)) = some ([⟨7, 4, 96⟩, ⟨9, 3, 100⟩], ⟨7, 0, 0, 7, 12, 4⟩, 0) := by decide +kernel
example : LeastPow2 5 8 := ⟨⟨3, rfl⟩, by decide, fun j hj => by
  rcases Nat.lt_or_ge j 3 with h | h
  · have : j = 0 ∨ j = 1 ∨ j = 2 := by omega
    rcases this with rfl | rfl | rfl <;> simp at hj
  · exact Nat.pow_le_pow_right (n := 2) (by decide) h⟩

/-- **C94 is violated**: a request for 2^24 elements of 2^40 + 1 bytes is granted with a block of 2^24 bytes, because the product wraps. -/
theorem queue_violated : ∃ w', queueAlloc exWorld exQueue 7 (2 ^ 40 + 1) (2 ^ 24) = some (w', ⟨7, 0, 0, 2 ^ 24 - 1, 2 ^ 40 + 1, 4⟩, 0) ∧
    ⟨7, 4, 2 ^ 24⟩ ∈ w'.live := by
  have h : (queueAlloc exWorld exQueue 7 (2 ^ 40 + 1) (2 ^ 24)).map (fun r => (r.1.live, r.2)) =
      some ([⟨7, 4, 2 ^ 24⟩, ⟨9, 3, 100⟩], ⟨7, 0, 0, 2 ^ 24 - 1, 2 ^ 40 + 1, 4⟩, 0) := by decide +kernel
  obtain ⟨r, hr, he⟩ := Option.map_eq_some_iff.1 h
  obtain ⟨w', q', rc⟩ := r
  simp only [Prod.mk.injEq] at he
  obtain ⟨h1, rfl, rfl⟩ := he
  exact ⟨w', hr, by rw [h1]; simp⟩

/-- **C94 is violated**: a request for more than 2^63 elements is not refused but undefined. -/
theorem queue_huge_violated (w : World) (q : Queue) (alloc : Nat) (esize size : Nat) (h : 2 ^ 63 < size) (hlt : size < 2 ^ 64) : queueAlloc w q alloc esize size = none := by
  have hs : (BitVec.ofNat 64 size).toNat = size := by
    rw [BitVec.toNat_ofNat]; exact Nat.mod_eq_of_lt hlt
  unfold queueAlloc
  rw [((Scan.pow2_roundup_outside (BitVec.ofNat 64 size)).2 (by omega)).1]
  rfl

/-! ## Bitmaps -/

/-- C94, bitmaps: the block has a bit for every bit asked for; requests too close to 2^32 and for nothing are refused. -/
theorem bitmap_life {w : World} (h : Ok w) (alloc : Nat) (bits : Nat) (hb : bits < 2 ^ 32) :
    Ok (bitmapAlloc w alloc bits).1 ∧
    ((bitmapAlloc w alloc bits).2 = 0 ∧ (bitmapAlloc w alloc bits).1.live = w.live ∧ (bits = 0 ∨ 2 ^ 32 - 63 ≤ bits ∨ w.fail w.calls = true) ∨
     (bitmapAlloc w alloc bits).2 ≠ 0 ∧ ∃ bytes, (bitmapAlloc w alloc bits).1.live = ⟨alloc, (bitmapAlloc w alloc bits).2, bytes⟩ :: w.live ∧ bits ≤ 8 * bytes ∧ 8 * bytes < bits + 64) := by
  obtain ⟨o1, _, ⟨e1, e2, e3⟩ | ⟨e1, e2, e3⟩⟩ := malloc_spec h alloc (8 * bitsToLong bits % 2 ^ 64)
  · refine ⟨o1, Or.inl ⟨e1, e2, ?_⟩⟩
    rcases e3 with e3 | e3
    · simp only [bitsToLong] at e3
      rcases Nat.lt_or_ge (bits + 63) (2 ^ 32) with hlt | hge
      · rw [Nat.mod_eq_of_lt hlt] at e3; left; omega
      · right; left; omega
    · exact Or.inr (Or.inr e3)
  · refine ⟨o1, Or.inr ⟨e1, _, e3, ?_⟩⟩
    simp only [bitsToLong] at e2 ⊢
    rcases Nat.lt_or_ge (bits + 63) (2 ^ 32) with hlt | hge
    · rw [Nat.mod_eq_of_lt hlt]; omega
    · exfalso; omega

/-- C94. Giving a bitmap back. -/
theorem bitmap_free {w : World} (h : Ok w) {alloc bitmap : Nat} {bytes : Nat} {R : List Block} (hp : w.live.Perm (⟨alloc, bitmap, bytes⟩ :: R)) :
    ∃ w', bitmapFree w alloc bitmap = some w' ∧ Ok w' ∧ w'.live.Perm R := by
  obtain ⟨w', e, o, p, _⟩ := free_spec h hp
  exact ⟨w', e, o, p⟩

example : (bitmapAlloc exWorld 7 65).1.live = [⟨7, 4, 16⟩, ⟨9, 3, 100⟩] := by decide +kernel

/-! ## Bloom filters -/

/-- C94, Bloom filters: a refused request leaves nothing behind; otherwise there is one new block with room for the structure and at least as many bits
as asked for, for capacities up to 2^32 - 64. -/
theorem bloom_partial {hdr : Nat} (hh : 0 < hdr ∧ hdr < 2 ^ 32) {w : World} (h : Ok w) (alloc capacity : Nat) (hc : capacity ≤ 2 ^ 32 - 64) :
    ∃ w' b, bloomCreate hdr w alloc capacity = (w', b) ∧ Ok w' ∧
      (b = none ∧ w'.live = w.live ∧ w.fail w.calls = true ∨
       ∃ b' bytes, b = some b' ∧ b'.alloc = alloc ∧ w'.live = ⟨alloc, b'.bloom, bytes⟩ :: w.live ∧ capacity ≤ b'.capacity ∧ 8 * hdr + b'.capacity ≤ 8 * bytes) := by
  have hcap : (capacity + 63) % 2 ^ 32 = capacity + 63 := Nat.mod_eq_of_lt (by omega)
  unfold bloomCreate
  simp only [hcap]
  have hm := malloc_spec h alloc (hdr + 8 * ((capacity + 63) / 64 * 64 / 64))
  obtain ⟨o1, _, ⟨e1, e2, e3⟩ | ⟨e1, e2, e3⟩⟩ := hm
  · simp only [if_pos e1]
    refine ⟨_, _, rfl, o1, Or.inl ⟨rfl, e2, ?_⟩⟩
    rcases e3 with e3 | e3
    · omega
    · exact e3
  · simp only [if_neg e1]
    refine ⟨_, _, rfl, o1, Or.inr ⟨_, _, rfl, rfl, e3, ?_, ?_⟩⟩
    · show capacity ≤ (capacity + 63) / 64 * 64; omega
    · show 8 * hdr + (capacity + 63) / 64 * 64 ≤ _; omega

/-- C94. Destroying a Bloom filter gives back its block. -/
theorem bloom_destroy {w : World} (h : Ok w) (b : BloomObj) {bytes : Nat} {R : List Block} (hp : w.live.Perm (⟨b.alloc, b.bloom, bytes⟩ :: R)) :
    ∃ w', bloomDestroy w b = some w' ∧ Ok w' ∧ w'.live.Perm R := by
  obtain ⟨w', e, o, p, _⟩ := free_spec h hp
  exact ⟨w', e, o, p⟩

example : (bloomCreate 40 exWorld 7 100).1.live = [⟨7, 4, 56⟩, ⟨9, 3, 100⟩] ∧ (bloomCreate 40 exWorld 7 100).2 = some ⟨7, 4, 128⟩ := by decide +kernel

/-- **C94 is violated**: a filter of 2^32 - 1 bits is granted with no bits at all, because the rounded capacity wraps to zero. -/
theorem bloom_violated : (bloomCreate 40 exWorld 7 (2 ^ 32 - 1)).1.live = [⟨7, 4, 40⟩, ⟨9, 3, 100⟩] ∧ (bloomCreate 40 exWorld 7 (2 ^ 32 - 1)).2 = some ⟨7, 4, 0⟩ := by decide +kernel

/-! ## Text searches -/

/-- C94, text searches: a refused request for memory leaves nothing behind; otherwise there is one new block, in which the table of one `unsigned int`
per byte of the pattern and the pattern follow the structure, for patterns shorter than 2^30 bytes. -/
theorem search_partial (hdr : Algo → Nat) (hh : ∀ a, 0 < hdr a ∧ hdr a < 2 ^ 32) {w : World} (h : Ok w) (alloc : Nat) (algo : Algo) (len : Nat) (hl : len < 2 ^ 30) :
    ∃ w' s, searchCreate hdr w alloc algo len = (w', s) ∧ Ok w' ∧
      (s = none ∧ w'.live = w.live ∧ w.fail w.calls = true ∨
       ∃ s' bytes, s = some s' ∧ s'.alloc = alloc ∧ s'.patternLen = len ∧ w'.live = ⟨alloc, s'.tsc, bytes⟩ :: w.live ∧
         hdr algo + (if algo = .sunday then 0 else 4 * len) ≤ s'.pattern ∧ s'.pattern + len ≤ bytes) := by
  have hA := hh algo
  have hbig : algo.pattern hdr len + len < 2 ^ 64 := by
    have h1 := Nat.mod_lt (4 * len) (show 0 < 2 ^ 32 by decide)
    cases algo <;> simp only [Algo.pattern] <;> omega
  have hpos : 0 < algo.pattern hdr len := by
    cases algo <;> simp only [Algo.pattern] <;> omega
  have hm := malloc_spec h alloc (algo.pattern hdr len + len)
  unfold searchCreate
  simp only [Nat.mod_eq_of_lt hbig]
  obtain ⟨o1, _, ⟨e1, e2, e3⟩ | ⟨e1, e2, e3⟩⟩ := hm
  · rw [if_pos e1]
    refine ⟨_, _, rfl, o1, Or.inl ⟨rfl, e2, ?_⟩⟩
    rcases e3 with e3 | e3
    · omega
    · exact e3
  · rw [if_neg e1]
    refine ⟨_, _, rfl, o1, Or.inr ⟨_, _, rfl, rfl, ?_, e3, ?_, Nat.le_refl _⟩⟩
    · show len % 2 ^ 32 = len
      exact Nat.mod_eq_of_lt (by omega)
    · show _ ≤ algo.pattern hdr len
      have : 4 * len % 2 ^ 32 = 4 * len := Nat.mod_eq_of_lt (by omega)
      cases algo <;> simp [Algo.pattern, this]

/-- C94. Destroying a search gives back its block. -/
theorem search_destroy {w : World} (h : Ok w) (s : Search) {bytes : Nat} {R : List Block} (hp : w.live.Perm (⟨s.alloc, s.tsc, bytes⟩ :: R)) :
    ∃ w', searchDestroy w s = some w' ∧ Ok w' ∧ w'.live.Perm R := by
  obtain ⟨w', e, o, p, _⟩ := free_spec h hp
  exact ⟨w', e, o, p⟩

/-- The sizes of `struct bm_context`, `struct kmp_context` and `struct sunday_context`, which vary with the layout of `bfdev_ts_context_t`. -/
def exHdr : Algo → Nat
  | .bm => 1072
  | .kmp => 56
  | .sunday => 1056
example : ∀ a, 0 < exHdr a ∧ exHdr a < 2 ^ 32 := by intro a; cases a <;> decide
example : (searchCreate exHdr exWorld 7 .kmp 5).1.live = [⟨7, 4, 81⟩, ⟨9, 3, 100⟩] ∧ (searchCreate exHdr exWorld 7 .kmp 5).2 = some ⟨7, 4, 76, 5⟩ := by decide +kernel

/-- **C94 is violated**: for a pattern of 2^30 bytes the table of the Boyer-Moore and the Knuth-Morris-Pratt search is given no room at all: its size
wraps to zero, so the pattern begins where the table begins, and the block ends before the table does. -/
theorem search_violated (hdr : Algo → Nat) (hh : ∀ a, 0 < hdr a ∧ hdr a < 2 ^ 32) {w : World} (h : Ok w) (hw : w.fail w.calls = false) (alloc : Nat) (algo : Algo) (ha : algo ≠ .sunday) :
    ∃ w' s bytes, searchCreate hdr w alloc algo (2 ^ 30) = (w', some s) ∧ w'.live = ⟨alloc, s.tsc, bytes⟩ :: w.live ∧ s.pattern = hdr algo ∧ bytes < hdr algo + 4 * 2 ^ 30 := by
  obtain ⟨L, hL⟩ : ∃ L, L = 2 ^ 30 := ⟨_, rfl⟩
  rw [← hL]
  have hA := hh algo
  have hp : algo.pattern hdr L = hdr algo := by
    have : 4 * L % 2 ^ 32 = 0 := by omega
    cases algo
    · simp only [Algo.pattern, this, Nat.add_zero]
    · simp only [Algo.pattern, this, Nat.add_zero]
    · exact absurd rfl ha
  have hm := malloc_spec h alloc (hdr algo + L)
  unfold searchCreate
  simp only [hp, Nat.mod_eq_of_lt (show hdr algo + L < 2 ^ 64 by omega)]
  obtain ⟨o1, _, ⟨e1, e2, e3⟩ | ⟨e1, e2, e3⟩⟩ := hm
  · rcases e3 with e3 | e3
    · omega
    · rw [hw] at e3; exact absurd e3 (by decide)
  · simp only [if_neg e1]
    exact ⟨_, _, _, rfl, e3, rfl, by omega⟩

/-! ## Caches -/

/-- The blocks of nodes. -/
def nodeBlocks (alloc nodeSize : Nat) (elems : List Nat) : List Block := elems.map fun a => ⟨alloc, a, nodeSize⟩

theorem createNodes_spec (nodeSize : Nat) (alloc : Nat) : ∀ (left : Nat) (w : World) (elems : List Nat), Ok w →
    ∃ w' new ok, createNodes nodeSize alloc left w elems = (w', elems ++ new, ok) ∧ Ok w' ∧ w'.fail = w.fail ∧ w'.live.Perm (nodeBlocks alloc nodeSize new ++ w.live) ∧
      (ok = true → new.length = left) ∧ (ok = false → nodeSize = 0 ∨ ∃ n, w.fail n = true)
  | 0, w, elems, h => ⟨w, [], true, by simp [createNodes], h, rfl, by simp [nodeBlocks], by simp, by simp⟩
  | left + 1, w, elems, h => by
    rw [createNodes]
    obtain ⟨o1, o2, ⟨e1, e2, e3⟩ | ⟨e1, e2, e3⟩⟩ := malloc_spec h alloc nodeSize
    · simp only [if_pos e1]
      exact ⟨_, [], false, by simp, o1, o2, by simp [nodeBlocks, e2], by simp, fun _ => e3.imp id fun e => ⟨_, e⟩⟩
    · simp only [if_neg e1]
      obtain ⟨w', new, ok, a1, a2, a3, a4, a5, a6⟩ := createNodes_spec nodeSize alloc left (malloc w alloc nodeSize).1 (elems ++ [(malloc w alloc nodeSize).2]) o1
      refine ⟨w', (malloc w alloc nodeSize).2 :: new, ok, by rw [a1]; simp, a2, a3.trans o2, ?_, fun e => by simp [a5 e], fun e => by rw [o2] at a6; exact a6 e⟩
      rw [e3] at a4
      refine a4.trans ?_
      simp only [nodeBlocks, List.map_cons, List.cons_append]
      exact List.perm_middle

theorem freeNodesBack_spec {alloc nodeSize : Nat} {elems : List Nat} {R : List Block} : ∀ (count : Nat) (w : World), count ≤ elems.length → Ok w →
    w.live.Perm (nodeBlocks alloc nodeSize (elems.take count) ++ R) → ∃ w', freeNodesBack alloc elems count w = some w' ∧ Ok w' ∧ w'.live.Perm R ∧ w'.fail = w.fail
  | 0, w, _, h, hp => ⟨w, rfl, h, by simpa [nodeBlocks] using hp, rfl⟩
  | count + 1, w, hc, h, hp => by
    have hlt : count < elems.length := hc
    rw [freeNodesBack, List.getElem?_eq_getElem hlt]
    simp only [Option.bind_eq_bind, Option.bind_some]
    rw [List.take_add_one, List.getElem?_eq_getElem hlt] at hp
    have hp' : w.live.Perm (⟨alloc, elems[count], nodeSize⟩ :: (nodeBlocks alloc nodeSize (elems.take count) ++ R)) := by
      refine hp.trans ?_
      simp only [nodeBlocks, Option.toList, List.map_append, List.map_cons, List.map_nil, List.append_assoc, List.cons_append, List.nil_append]
      exact List.perm_middle
    obtain ⟨w', e, o, p, f⟩ := free_spec h hp'
    simp only at e
    rw [e]
    rw [← f]
    exact freeNodesBack_spec count w' (by omega) o p

theorem freeNodes_spec {alloc nodeSize : Nat} {elems : List Nat} {R : List Block} : ∀ (left count : Nat) (w : World), count + left = elems.length → Ok w →
    w.live.Perm (nodeBlocks alloc nodeSize (elems.drop count) ++ R) → ∃ w', freeNodes alloc elems left count w = some w' ∧ Ok w' ∧ w'.live.Perm R
  | 0, count, w, hc, h, hp => ⟨w, rfl, h, by rw [List.drop_eq_nil_of_le (by omega)] at hp; simpa [nodeBlocks] using hp⟩
  | left + 1, count, w, hc, h, hp => by
    have hlt : count < elems.length := by omega
    rw [freeNodes, List.getElem?_eq_getElem hlt]
    simp only [Option.bind_eq_bind, Option.bind_some]
    rw [List.drop_eq_getElem_cons hlt] at hp
    simp only [nodeBlocks, List.map_cons, List.cons_append] at hp
    obtain ⟨w', e, o, p, _⟩ := free_spec h hp
    simp only at e
    rw [e]
    exact freeNodes_spec left (count + 1) w' (by omega) o p

/-- The blocks of a cache of `size` nodes: its head, the array of pointers to the nodes, the hash heads and the nodes. -/
def cacheBlocks (headSize nodeSize : Nat) (c : Cache) : List Block :=
  ⟨c.alloc, c.taghash, 8 * c.size⟩ :: (nodeBlocks c.alloc nodeSize c.elems ++ [⟨c.alloc, c.nodes, 8 * c.size⟩, ⟨c.alloc, c.head, headSize⟩])

theorem algoDestroy_spec {headSize nodeSize : Nat} {w : World} (h : Ok w) {c : Cache} (hc : c.elems.length = c.size) {R : List Block}
    (hp : w.live.Perm (nodeBlocks c.alloc nodeSize c.elems ++ ([⟨c.alloc, c.nodes, 8 * c.size⟩, ⟨c.alloc, c.head, headSize⟩] ++ R))) :
    ∃ w', algoDestroy w c = some w' ∧ Ok w' ∧ w'.live.Perm R := by
  obtain ⟨w1, e1, o1, p1⟩ := freeNodes_spec (alloc := c.alloc) (nodeSize := nodeSize) (elems := c.elems) c.size 0 w (by omega) h (by rw [List.drop_zero]; exact hp)
  obtain ⟨w2, e2, o2, p2, _⟩ := free_spec o1 p1
  obtain ⟨w3, e3, o3, p3, _⟩ := free_spec o2 p2
  simp only at e2 e3
  exact ⟨w3, by simp [algoDestroy, e1, e2, e3], o3, p3⟩

/-- C94. Destroying a cache gives back each of its blocks once, to its allocator. -/
theorem cache_destroy {headSize nodeSize : Nat} {w : World} (h : Ok w) {c : Cache} (hc : c.elems.length = c.size) {R : List Block}
    (hp : w.live.Perm (cacheBlocks headSize nodeSize c ++ R)) : ∃ w', cacheDestroy w c = some w' ∧ Ok w' ∧ w'.live.Perm R := by
  simp only [cacheBlocks, List.cons_append, List.append_assoc] at hp
  obtain ⟨w1, e1, o1, p1, _⟩ := free_spec h hp
  obtain ⟨w2, e2, o2, p2⟩ := algoDestroy_spec (headSize := headSize) (nodeSize := nodeSize) o1 hc p1
  simp only at e1
  exact ⟨w2, by simp [cacheDestroy, e1, e2], o2, p2⟩

theorem pow2_array {n : Nat} (h : ∃ k, n = 2 ^ k) (hn : n ≤ 2 ^ 63) : 8 * n % 2 ^ 64 = 0 ∨ 8 * n % 2 ^ 64 = 8 * n ∧ n ≤ 2 ^ 60 := by
  obtain ⟨k, rfl⟩ := h
  rcases Nat.lt_or_ge k 61 with hk | hk
  · right
    have : 2 ^ k ≤ 2 ^ 60 := Nat.pow_le_pow_right (by decide) (by omega)
    exact ⟨Nat.mod_eq_of_lt (by omega), this⟩
  · left
    obtain ⟨j, rfl⟩ : ∃ j, k = 61 + j := ⟨k - 61, by omega⟩
    rw [show 8 * 2 ^ (61 + j) = 2 ^ 64 * 2 ^ j by rw [Nat.pow_add]; omega]
    exact Nat.mul_mod_right _ _

theorem algoCreate_spec {headSize nodeSize : Nat} {w : World} (h : Ok w) (alloc : Nat) {size : Nat} (hs : ∃ k, size = 2 ^ k) (hs63 : size ≤ 2 ^ 63) :
    ∃ w' c, algoCreate headSize nodeSize w alloc size = some (w', c) ∧ Ok w' ∧ w'.fail = w.fail ∧
      (c = none → w'.live.Perm w.live ∧ (headSize = 0 ∨ nodeSize = 0 ∨ 2 ^ 60 < size ∨ ∃ n, w.fail n = true)) ∧
      (∀ c', c = some c' → c'.elems.length = size ∧ size ≤ 2 ^ 60 ∧
        w'.live.Perm (nodeBlocks alloc nodeSize c'.elems ++ ([⟨alloc, c'.nodes, 8 * size⟩, ⟨alloc, c'.head, headSize⟩] ++ w.live))) := by
  unfold algoCreate
  have H := malloc_spec h alloc headSize
  revert H
  generalize malloc w alloc headSize = mh
  obtain ⟨w1, head⟩ := mh
  intro H
  simp only at H ⊢
  obtain ⟨o1, f1, ⟨e1, e2, e3⟩ | ⟨e1, e2, e3⟩⟩ := H
  · simp only [if_pos e1]
    refine ⟨_, _, rfl, o1, f1, fun _ => ⟨by rw [e2], ?_⟩, by simp⟩
    rcases e3 with e3 | e3
    · exact Or.inl e3
    · exact Or.inr (Or.inr (Or.inr ⟨_, e3⟩))
  simp only [if_neg e1]
  have N := malloc_spec o1 alloc (8 * size % 2 ^ 64)
  unfold mallocArray
  revert N
  generalize malloc w1 alloc (8 * size % 2 ^ 64) = mn
  obtain ⟨w2, nodes⟩ := mn
  intro N
  simp only at N ⊢
  obtain ⟨o2, f2, ⟨n1, n2, n3⟩ | ⟨n1, n2, n3⟩⟩ := N
  · simp only [if_pos n1]
    obtain ⟨w3, e, o, p, f⟩ := free_spec (b := ⟨alloc, head, headSize⟩) (R := w.live) o2 (by rw [n2, e3])
    simp only at e
    rw [e]
    refine ⟨w3, none, rfl, o, f.trans (f2.trans f1), fun _ => ⟨p, ?_⟩, by simp⟩
    rcases n3 with n3 | n3
    · rcases pow2_array hs hs63 with hz | ⟨hz, _⟩
      · refine Or.inr (Or.inr (Or.inl ?_))
        rcases Nat.lt_or_ge (2 ^ 60) size with hlt | hge
        · exact hlt
        · rw [Nat.mod_eq_of_lt (by omega)] at hz
          obtain ⟨k, hk⟩ := hs
          have := Nat.pos_of_ne_zero (n := 2 ^ k) (by simp)
          omega
      · obtain ⟨k, hk⟩ := hs
        have := Nat.pos_of_ne_zero (n := 2 ^ k) (by simp)
        omega
    · rw [f1] at n3; exact Or.inr (Or.inr (Or.inr ⟨_, n3⟩))
  simp only [if_neg n1]
  have hbytes : 8 * size % 2 ^ 64 = 8 * size ∧ size ≤ 2 ^ 60 := (pow2_array hs hs63).resolve_left n2
  rw [hbytes.1] at n3
  obtain ⟨w3, new, ok, c1, c2, c3, c4, c5, c6⟩ := createNodes_spec nodeSize alloc size w2 [] o2
  rw [c1]
  simp only [List.nil_append]
  rw [n3, e3] at c4
  cases ok with
  | true =>
    simp only [if_true]
    refine ⟨_, _, rfl, c2, c3.trans (f2.trans f1), by simp, ?_⟩
    rintro c' he
    simp only [Option.some.injEq] at he
    subst he
    exact ⟨c5 rfl, hbytes.2, c4⟩
  | false =>
    simp only [Bool.false_eq_true, if_false]
    obtain ⟨w4, g1, g2, g3, g4⟩ := freeNodesBack_spec (elems := new) (nodeSize := nodeSize) new.length w3 (Nat.le_refl _) c2 (by rw [List.take_length]; exact c4)
    obtain ⟨w5, h1, h2, h3, h4⟩ := free_spec g2 g3
    obtain ⟨w6, i1, i2, i3, i4⟩ := free_spec h2 h3
    simp only at h1 i1
    rw [g1]
    simp only [Option.bind_eq_bind, Option.bind_some]
    rw [h1]
    simp only [Option.bind_eq_bind, Option.bind_some]
    rw [i1]
    have hfail : w6.fail = w.fail := by
      rw [i4, h4, g4, c3, f2, f1]
    refine ⟨w6, none, rfl, i2, hfail, fun _ => ⟨i3, ?_⟩, by simp⟩
    rcases c6 rfl with c6 | ⟨n, c6⟩
    · exact Or.inr (Or.inl c6)
    · rw [f2, f1] at c6; exact Or.inr (Or.inr (Or.inr ⟨n, c6⟩))

/-- C94, caches. A creation that is refused, for missing callbacks, an unknown algorithm, a size below two or missing memory, leaves no memory
behind. Otherwise the cache has the least power of two of nodes not below the request and consists of the blocks named. If no request for
memory is refused, a valid request of at most 2^60 nodes succeeds. -/
theorem cache_create {headSize nodeSize : Nat} (ops found : Bool) {w : World} (h : Ok w) (alloc size : Nat) (hs : size ≤ 2 ^ 63) :
    ∃ w' c, cacheCreate headSize nodeSize ops found w alloc size = some (w', c) ∧ Ok w' ∧
      (c = none → w'.live.Perm w.live ∧ (ops = true → found = true → 2 ≤ size → size ≤ 2 ^ 60 → headSize ≠ 0 → nodeSize ≠ 0 → ∃ n, w.fail n = true)) ∧
      (∀ c', c = some c' → ops = true ∧ found = true ∧ 2 ≤ size ∧ LeastPow2 size c'.size ∧ c'.alloc = alloc ∧ c'.elems.length = c'.size ∧
        w'.live.Perm (cacheBlocks headSize nodeSize c' ++ w.live)) := by
  unfold cacheCreate
  cases ops with
  | false => exact ⟨w, none, rfl, h, fun _ => ⟨List.Perm.refl _, by simp⟩, by simp⟩
  | true =>
  simp only [Bool.not_true, Bool.false_eq_true, if_false]
  obtain ⟨r, hr, hr0, hr1⟩ := roundup hs
  rw [hr]
  simp only [Option.bind_eq_bind, Option.bind_some]
  by_cases hlt : r.toNat < 2
  · rw [if_pos hlt]
    refine ⟨w, none, rfl, h, fun _ => ⟨List.Perm.refl _, fun _ _ h2 => ?_⟩, by simp⟩
    have := ((hr1 (by omega)).lt_two (by omega)).1 hlt
    omega
  rw [if_neg hlt]
  have h0 : 0 < size := by
    rcases Nat.eq_zero_or_pos size with h0 | h0
    · have := hr0 h0; omega
    · exact h0
  have hl := hr1 h0
  have h2 : 2 ≤ size := by
    have := mt (hl.lt_two h0).2 hlt; omega
  have h63 : r.toNat ≤ 2 ^ 63 := hl.2.2 63 hs
  have h60 : size ≤ 2 ^ 60 → r.toNat ≤ 2 ^ 60 := fun h => hl.2.2 60 h
  cases found with
  | false => exact ⟨w, none, rfl, h, fun _ => ⟨List.Perm.refl _, by simp⟩, by simp⟩
  | true =>
  simp only [Bool.not_true, Bool.false_eq_true, if_false]
  obtain ⟨w1, c1, a1, a2, a3, a4, a5⟩ := algoCreate_spec (headSize := headSize) (nodeSize := nodeSize) h alloc hl.1 h63
  rw [a1]
  simp only [Option.bind_eq_bind, Option.bind_some]
  cases c1 with
  | none =>
    obtain ⟨b1, b2⟩ := a4 rfl
    refine ⟨w1, none, rfl, a2, fun _ => ⟨b1, fun _ _ _ g1 g2 g3 => ?_⟩, by simp⟩
    rcases b2 with b2 | b2 | b2 | b2
    · exact absurd b2 g2
    · exact absurd b2 g3
    · have := h60 g1; omega
    · exact b2
  | some c1 =>
    obtain ⟨b1, b2, b3⟩ := a5 c1 rfl
    have hm := malloc_spec a2 alloc (8 * r.toNat % 2 ^ 64)
    rw [show malloc w1 alloc (8 * r.toNat % 2 ^ 64) = mallocArray w1 alloc r.toNat 8 from rfl] at hm
    have hbytes : 8 * r.toNat % 2 ^ 64 = 8 * r.toNat := Nat.mod_eq_of_lt (by omega)
    obtain ⟨o1, f1, ⟨e1, e2, e3⟩ | ⟨e1, e2, e3⟩⟩ := hm
    · simp only [if_pos e1]
      obtain ⟨w2, d1, d2, d3⟩ := algoDestroy_spec (headSize := headSize) (nodeSize := nodeSize) (w := (mallocArray w1 alloc r.toNat 8).1) o1
        (c := ⟨c1.head, c1.nodes, c1.elems, (mallocArray w1 alloc r.toNat 8).2, alloc, r.toNat⟩) b1 (R := w.live) (by rw [e2]; exact b3)
      rw [d1]
      refine ⟨w2, none, rfl, d2, fun _ => ⟨d3, fun _ _ _ _ _ _ => ?_⟩, by simp⟩
      rcases e3 with e3 | e3
      · omega
      · rw [a3] at e3; exact ⟨_, e3⟩
    · simp only [if_neg e1]
      refine ⟨_, _, rfl, o1, by simp, ?_⟩
      intro c' hc'
      simp only [Option.some.injEq] at hc'
      subst hc'
      refine ⟨trivial, trivial, h2, hl, rfl, b1, ?_⟩
      rw [e3, hbytes]
      refine (List.Perm.cons _ b3).trans ?_
      simp [cacheBlocks]

/-- A cache of three nodes asked for: four nodes in seven blocks; the world refuses the third request, so nothing is left of the attempt; with an
allocator that refuses nothing the cache is made and destroyed. -/
example : (cacheCreate 200 80 true true exWorld 7 3).map (fun r => (r.1.live, r.2)) = some ([⟨9, 3, 100⟩], none) := by decide +kernel
example : (cacheCreate 200 80 true true { exWorld with fail := fun _ => false } 7 3).map (fun r => (r.1.live, r.2)) =
    some ([⟨7, 10, 32⟩, ⟨7, 9, 80⟩, ⟨7, 8, 80⟩, ⟨7, 7, 80⟩, ⟨7, 6, 80⟩, ⟨7, 5, 32⟩, ⟨7, 4, 200⟩, ⟨9, 3, 100⟩], some ⟨4, 5, [6, 7, 8, 9], 10, 7, 4⟩) := by decide +kernel
example : ((cacheCreate 200 80 true true { exWorld with fail := fun _ => false } 7 3).bind fun r => r.2.bind fun c => cacheDestroy r.1 c).map (·.live) =
    some [⟨9, 3, 100⟩] := by decide +kernel
example : ((cacheCreate 200 80 true true { exWorld with fail := fun _ => false } 7 3).bind fun r => r.2.bind fun c => (cacheDestroy r.1 c).bind fun w => cacheDestroy w c).isNone =
    true := by decide +kernel

end Bfdev.Life
