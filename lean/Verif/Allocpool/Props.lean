import Verif.Allocpool.Model
import Verif.Scan.Props
/-!
C31: the arena allocator.
-/
namespace Bfdev.Allocpool
open Scan (Word)

/-- A live block: its address and its size. -/
structure Blk where
  addr : Word
  len : Word
deriving DecidableEq

inductive Op where
  | alloc (size align : Word)
  | free (b : Blk)
  | reset

/-- The pool together with the blocks its user holds. -/
structure World where
  pool : Pool
  live : List Blk

/-- A user of the pool: blocks granted are held until freed; a reset gives up all of them. -/
def Op.run (w : World) : Op → World
  | .alloc size align =>
    match Allocpool.alloc w.pool size align with
    | (none, p) => ⟨p, w.live⟩
    | (some a, p) => ⟨p, ⟨a, size⟩ :: w.live⟩
  | .free b => ⟨Allocpool.free w.pool, w.live.erase b⟩
  | .reset => ⟨Allocpool.reset w.pool, []⟩

/-- Only held blocks are freed; alignments are powers of two (or zero); the end of the arena, the alignment and the size added
together stay below the top of the address space. -/
def Op.Ok (w : World) : Op → Prop
  | .alloc size align => (align = 0 ∨ ∃ k, align.toNat = 2 ^ k) ∧
      w.pool.block.toNat + w.pool.size.toNat + align.toNat + 8 + size.toNat < 2 ^ 64
  | .free b => b ∈ w.live
  | .reset => True

def runAll (w : World) (ops : List Op) : World := ops.foldl Op.run w

def OkAll (w : World) : List Op → Prop
  | [] => True
  | op :: ops => op.Ok w ∧ OkAll (op.run w) ops

/-- Two blocks share no byte. -/
def Apart (a b : Blk) : Prop := a.addr.toNat + a.len.toNat ≤ b.addr.toNat ∨ b.addr.toNat + b.len.toNat ≤ a.addr.toNat

/-- A block lies inside the arena. -/
def Inside (p : Pool) (b : Blk) : Prop := p.block.toNat ≤ b.addr.toNat ∧ b.addr.toNat + b.len.toNat ≤ p.block.toNat + p.size.toNat

structure Inv (w : World) : Prop where
  fits : w.pool.block.toNat + w.pool.size.toNat < 2 ^ 64
  last : w.pool.last.toNat ≤ w.pool.size.toNat
  count : w.pool.count.toNat = w.live.length
  inside : ∀ b ∈ w.live, w.pool.block.toNat ≤ b.addr.toNat ∧ b.addr.toNat + b.len.toNat ≤ w.pool.block.toNat + w.pool.last.toNat
  nonempty : ∀ b ∈ w.live, 0 < b.len.toNat
  apart : w.live.Pairwise Apart
  space : w.live.length ≤ w.pool.last.toNat

theorem align_pow (align : Word) (h : align = 0 ∨ ∃ k, align.toNat = 2 ^ k) :
    ∃ k, 3 ≤ k ∧ k < 64 ∧ (Scan.alignHigh (if align = 0 then 1 else align) 8).toNat = 2 ^ k ∧ align.toNat ∣ 2 ^ k ∨ align = 0 ∧ k = 3 ∧
      (Scan.alignHigh (if align = 0 then 1 else align) 8).toNat = 2 ^ k := by
  rcases h with rfl | ⟨k, hk⟩
  · exact ⟨3, Or.inr ⟨rfl, rfl, by decide⟩⟩
  · have hne : align ≠ 0 := by
      intro e; rw [e] at hk
      have := Nat.two_pow_pos k
      simp at hk; omega
    have hk64 : k < 64 := by
      have := align.isLt
      rw [hk] at this
      exact (Nat.pow_lt_pow_iff_right (by decide)).1 this
    rw [if_neg hne]
    by_cases h3 : k < 3
    · refine ⟨3, Or.inl ⟨by omega, by omega, ?_, ?_⟩⟩
      · have : align = BitVec.ofNat 64 (2 ^ k) := by rw [← hk]; simp
        rw [this]
        have : k = 0 ∨ k = 1 ∨ k = 2 := by omega
        rcases this with rfl | rfl | rfl <;> decide
      · rw [hk]; exact Nat.pow_dvd_pow 2 (by omega)
    · refine ⟨k, Or.inl ⟨by omega, hk64, ?_, by rw [hk]; exact Nat.dvd_refl _⟩⟩
      have h63 : k ≤ 63 := by omega
      have hle : 2 ^ k ≤ 2 ^ 63 := Nat.pow_le_pow_right (by decide) h63
      obtain ⟨-, -, h⟩ := Scan.align_correct align 8 3 (by decide)
      obtain ⟨d1, d2, d3⟩ := h (by rw [hk]; omega)
      have d4 : 2 ^ 3 ∣ 2 ^ k := Nat.pow_dvd_pow 2 (by omega)
      rw [hk] at d2 d3
      obtain ⟨a, ha⟩ := d1
      obtain ⟨b, hb⟩ := d4
      omega

theorem alloc_sound {w : World} (h : Inv w) {size align : Word} (ok : (Op.alloc size align).Ok w) :
    Allocpool.alloc w.pool size align = (none, w.pool) ∨
    ∃ a l : Word, Allocpool.alloc w.pool size align = (some a, { w.pool with last := l, count := w.pool.count + 1 }) ∧
      8 ∣ a.toNat ∧ (align ≠ 0 → align.toNat ∣ a.toNat) ∧ 0 < size.toNat ∧
      w.pool.block.toNat + w.pool.last.toNat ≤ a.toNat ∧ a.toNat + size.toNat = w.pool.block.toNat + l.toNat ∧
      l.toNat ≤ w.pool.size.toNat := by
  obtain ⟨hal, hsp⟩ := ok
  unfold Allocpool.alloc
  by_cases hs : size = 0
  · rw [if_pos hs]; exact Or.inl rfl
  rw [if_neg hs]
  have hs0 : 0 < size.toNat := by
    rcases Nat.eq_zero_or_pos size.toNat with e | e
    · exact absurd (BitVec.eq_of_toNat_eq (by simpa using e)) hs
    · exact e
  have hlast := h.last
  have hfits := h.fits
  have hbl : (w.pool.block + w.pool.last).toNat = w.pool.block.toNat + w.pool.last.toNat := by
    rw [BitVec.toNat_add]; exact Nat.mod_eq_of_lt (by omega)
  -- the alignment used
  obtain ⟨k, hk3, hak, hka, hdv⟩ : ∃ k, 3 ≤ k ∧ (Scan.alignHigh (if align = 0 then 1 else align) 8).toNat = 2 ^ k ∧
      2 ^ k ≤ align.toNat + 8 ∧ (align ≠ 0 → align.toNat ∣ 2 ^ k) := by
    rcases hal with e | ⟨k, hk⟩
    · subst e
      exact ⟨3, by omega, by decide, by decide, fun hh => absurd rfl hh⟩
    · obtain ⟨k', h1⟩ := align_pow align (Or.inr ⟨k, hk⟩)
      rcases h1 with ⟨g1, g2, g3, g4⟩ | ⟨g1, g2, g3⟩
      · refine ⟨k', g1, g3, ?_, fun _ => g4⟩
        have hne : align ≠ 0 := by
          intro e; rw [e] at hk
          have := Nat.two_pow_pos k
          simp at hk; omega
        rw [if_neg hne] at g3
        obtain ⟨-, -, hh⟩ := Scan.align_correct align 8 3 (by decide)
        have := hh (by omega)
        omega
      · exact ⟨k', by omega, g3, by rw [g2]; omega, fun hh => absurd g1 hh⟩
  simp only
  generalize hA : Scan.alignHigh (if align = 0 then 1 else align) 8 = A at hak ⊢
  obtain ⟨-, -, hh⟩ := Scan.align_correct (w.pool.block + w.pool.last) A k hak
  obtain ⟨d1, d2, d3⟩ := hh (by rw [hbl]; omega)
  generalize hR : Scan.alignHigh (w.pool.block + w.pool.last) A = R at d1 d2 d3 ⊢
  rw [hbl] at d2 d3
  have hoff : ((R - w.pool.block) + size).toNat = R.toNat - w.pool.block.toNat + size.toNat := by
    rw [BitVec.toNat_add, BitVec.toNat_sub]
    omega
  split
  · exact Or.inl rfl
  · rename_i hle
    rw [BitVec.lt_def] at hle
    refine Or.inr ⟨R, _, rfl, ?_, ?_, hs0, d2, ?_, ?_⟩
    · exact Nat.dvd_trans (Nat.pow_dvd_pow 2 hk3) d1
    · exact fun hne => Nat.dvd_trans (hdv hne) d1
    · rw [hoff]; omega
    · omega

theorem inv_step {w : World} (h : Inv w) (op : Op) (ok : op.Ok w) : Inv (op.run w) := by
  cases op with
  | alloc size align =>
    rcases alloc_sound h ok with e | ⟨a, l, e, d1, d2, d3, d4, d5, d6⟩
    · simp only [Op.run, e]; exact h
    · simp only [Op.run, e]
      have hsp := h.space
      have hf := h.fits
      have hl := h.last
      refine ⟨h.fits, d6, ?_, ?_, ?_, ?_, ?_⟩
      · show (w.pool.count + 1).toNat = (_ :: w.live).length
        rw [BitVec.toNat_add, h.count, List.length_cons]
        have : (1 : BitVec 64).toNat = 1 := rfl
        rw [this]
        omega
      · intro b hb
        rcases List.mem_cons.1 hb with e | e
        · subst e; exact ⟨by show w.pool.block.toNat ≤ a.toNat; omega, by show a.toNat + size.toNat ≤ w.pool.block.toNat + l.toNat; omega⟩
        · have := h.inside b e
          exact ⟨this.1, by show _ ≤ w.pool.block.toNat + l.toNat; omega⟩
      · intro b hb
        rcases List.mem_cons.1 hb with e | e
        · subst e; exact d3
        · exact h.nonempty b e
      · refine List.pairwise_cons.2 ⟨fun b hb => Or.inr ?_, h.apart⟩
        have := h.inside b hb
        show b.addr.toNat + b.len.toNat ≤ a.toNat
        omega
      · show (_ :: w.live).length ≤ l.toNat
        rw [List.length_cons]; omega
  | free b =>
    have hb : b ∈ w.live := ok
    have hlen : (w.live.erase b).length = w.live.length - 1 := List.length_erase_of_mem hb
    have hpos : 0 < w.live.length := List.length_pos_of_mem hb
    have hc : (w.pool.count - 1).toNat = w.live.length - 1 := by
      rw [BitVec.toNat_sub, h.count]
      have : (1 : BitVec 64).toNat = 1 := rfl
      rw [this]
      have := w.pool.count.isLt
      rw [h.count] at this
      omega
    have hin : ∀ b' ∈ w.live.erase b, b' ∈ w.live := fun b' hb' => List.mem_of_mem_erase hb'
    simp only [Op.run, Allocpool.free]
    split
    · rename_i h0
      have h1 : w.live.length - 1 = 0 := by rw [← hc, h0]; rfl
      have h2 : w.live.erase b = [] := List.eq_nil_of_length_eq_zero (by omega)
      rw [h2]
      refine ⟨h.fits, Nat.zero_le _, ?_, by simp, by simp, List.Pairwise.nil, by simp⟩
      show (w.pool.count - 1).toNat = 0
      omega
    · rename_i h0
      have := h.space
      refine ⟨h.fits, h.last, by rw [hlen]; exact hc, fun b' hb' => h.inside b' (hin b' hb'), fun b' hb' => h.nonempty b' (hin b' hb'),
        List.Pairwise.sublist List.erase_sublist h.apart, ?_⟩
      show (w.live.erase b).length ≤ w.pool.last.toNat
      omega
  | reset => exact ⟨h.fits, Nat.zero_le _, rfl, by simp [Op.run], by simp [Op.run], List.Pairwise.nil, by simp [Op.run]⟩

theorem inv_all (ops : List Op) : ∀ {w : World}, Inv w → OkAll w ops → Inv (runAll w ops) := by
  induction ops with
  | nil => exact fun h _ => h
  | cons op ops ih => exact fun h ok => ih (inv_step h op ok.1) ok.2

theorem inv_init (block size : Word) (h : block.toNat + size.toNat < 2 ^ 64) : Inv ⟨init block size, []⟩ :=
  ⟨h, Nat.zero_le _, rfl, by simp, by simp, List.Pairwise.nil, by simp⟩

/-- C31 for requests within the address space: after any history of allocations, frees of held blocks and resets, in any order, the
held blocks are non-empty, lie inside the arena and share no byte. What is missing: requests so large that the end of the block
passes the top of the address space, see `arena_violated`. -/
theorem arena_disjoint_partial (block size : Word) (h : block.toNat + size.toNat < 2 ^ 64) (ops : List Op)
    (ok : OkAll ⟨init block size, []⟩ ops) :
    let w := runAll ⟨init block size, []⟩ ops
    w.live.Pairwise Apart ∧ ∀ b ∈ w.live, 0 < b.len.toNat ∧ block.toNat ≤ b.addr.toNat ∧
      b.addr.toNat + b.len.toNat ≤ block.toNat + size.toNat := by
  intro w
  have hi := inv_all ops (inv_init block size h) ok
  have hpool : ∀ (ops : List Op) (w : World), (runAll w ops).pool.block = w.pool.block ∧ (runAll w ops).pool.size = w.pool.size := by
    intro ops
    induction ops with
    | nil => exact fun _ => ⟨rfl, rfl⟩
    | cons op ops ih =>
      intro w
      have h1 : (op.run w).pool.block = w.pool.block ∧ (op.run w).pool.size = w.pool.size := by
        cases op with
        | alloc size align =>
          have h2 : (Allocpool.alloc w.pool size align).2.block = w.pool.block ∧
              (Allocpool.alloc w.pool size align).2.size = w.pool.size := by
            unfold Allocpool.alloc
            by_cases h0 : size = 0
            · rw [if_pos h0]; exact ⟨rfl, rfl⟩
            · rw [if_neg h0]; simp only; generalize Scan.alignHigh _ _ = R; split <;> exact ⟨rfl, rfl⟩
          simp only [Op.run]
          split <;> rename_i heq <;> rw [heq] at h2 <;> exact h2
        | free b => simp only [Op.run, Allocpool.free]; split <;> exact ⟨rfl, rfl⟩
        | reset => exact ⟨rfl, rfl⟩
      obtain ⟨h2, h3⟩ := ih (op.run w)
      exact ⟨h2.trans h1.1, h3.trans h1.2⟩
  obtain ⟨e1, e2⟩ := hpool ops ⟨init block size, []⟩
  refine ⟨hi.apart, fun b hb => ⟨hi.nonempty b hb, ?_⟩⟩
  have h1 := hi.inside b hb
  have h2 := hi.last
  rw [e1] at h1
  rw [e2] at h2
  have e3 : (init block size).block = block := rfl
  have e4 : (init block size).size = size := rfl
  simp only [e3, e4] at h1 h2
  omega

/-- C31: in a reachable state a request within the limits is refused or granted at a fresh, aligned address: at least 8-byte aligned,
and aligned as asked for powers of two; nothing else about the pool changes. -/
theorem arena_aligned_partial {w : World} (h : Inv w) (size align : Word) (ok : (Op.alloc size align).Ok w) :
    Allocpool.alloc w.pool size align = (none, w.pool) ∨
    ∃ a p, Allocpool.alloc w.pool size align = (some a, p) ∧ 8 ∣ a.toNat ∧ (align ≠ 0 → align.toNat ∣ a.toNat) ∧
      ∀ b ∈ w.live, Apart ⟨a, size⟩ b := by
  rcases alloc_sound h ok with e | ⟨a, l, e, d1, d2, d3, d4, d5, d6⟩
  · exact Or.inl e
  · refine Or.inr ⟨a, _, e, d1, d2, fun b hb => Or.inr ?_⟩
    have := h.inside b hb
    show b.addr.toNat + b.len.toNat ≤ a.toNat
    omega

/-- C31: a request is refused only when the aligned block does not fit behind the blocks handed out since the arena was last empty. -/
theorem arena_grants {w : World} (h : Inv w) (size align : Word) (ok : (Op.alloc size align).Ok w) (hs : size ≠ 0)
    (hfit : w.pool.last.toNat + (align.toNat + 7) + size.toNat ≤ w.pool.size.toNat) :
    ∃ a p, Allocpool.alloc w.pool size align = (some a, p) := by
  unfold Allocpool.alloc
  rw [if_neg hs]
  simp only
  generalize hA : Scan.alignHigh (if align = 0 then 1 else align) 8 = A
  split
  · rename_i hlt
    exfalso
    obtain ⟨hal, hsp⟩ := ok
    have hlast := h.last
    have hfits := h.fits
    have hbl : (w.pool.block + w.pool.last).toNat = w.pool.block.toNat + w.pool.last.toNat := by
      rw [BitVec.toNat_add]; exact Nat.mod_eq_of_lt (by omega)
    obtain ⟨k, hak, hka⟩ : ∃ k, (Scan.alignHigh (if align = 0 then 1 else align) 8).toNat = 2 ^ k ∧ 2 ^ k ≤ align.toNat + 8 := by
      rcases hal with e | ⟨k, hk⟩
      · subst e; exact ⟨3, by decide, by decide⟩
      · obtain ⟨k', h1⟩ := align_pow align (Or.inr ⟨k, hk⟩)
        rcases h1 with ⟨g1, g2, g3, g4⟩ | ⟨g1, g2, g3⟩
        · refine ⟨k', g3, ?_⟩
          have hne : align ≠ 0 := by
            intro e; rw [e] at hk
            have := Nat.two_pow_pos k
            simp at hk; omega
          rw [if_neg hne] at g3
          obtain ⟨-, -, hh⟩ := Scan.align_correct align 8 3 (by decide)
          have := hh (by omega)
          omega
        · exact ⟨k', g3, by rw [g2]; omega⟩
    rw [hA] at hak
    obtain ⟨-, -, hh⟩ := Scan.align_correct (w.pool.block + w.pool.last) A k hak
    obtain ⟨d1, d2, d3⟩ := hh (by rw [hbl]; omega)
    generalize hR : Scan.alignHigh (w.pool.block + w.pool.last) A = R at d1 d2 d3 hlt
    rw [hbl] at d2 d3
    have hoff : ((R - w.pool.block) + size).toNat = R.toNat - w.pool.block.toNat + size.toNat := by
      rw [BitVec.toNat_add, BitVec.toNat_sub]
      omega
    rw [BitVec.lt_def, hoff] at hlt
    omega
  · exact ⟨_, _, rfl⟩

/-- C31 fails for a request whose size passes the top of the address space: the end wraps, the request is granted, the next block
overlaps an earlier one. -/
theorem arena_violated :
    let w := runAll ⟨init 0x1000 64, []⟩ [.alloc 16 8, .alloc 0xfffffffffffffff0 8, .alloc 8 8]
    w.live = [⟨0x1000, 8⟩, ⟨0x1010, 0xfffffffffffffff0⟩, ⟨0x1000, 16⟩] ∧ ¬ Apart ⟨0x1000, 8⟩ ⟨0x1000, 16⟩ := by
  refine ⟨by decide, ?_⟩
  simp [Apart]

/-! A history within the guard: three blocks with different alignments, two frees. -/
private def demo : List Op := [.alloc 5 1, .alloc 16 32, .alloc 1 0, .free ⟨0x1000, 5⟩, .alloc 200 8, .free ⟨0x1030, 1⟩]

example : (runAll ⟨init 0x1000 128, []⟩ demo).live = [⟨0x1020, 16⟩] := by decide

example : OkAll ⟨init 0x1000 128, []⟩ demo :=
  ⟨⟨Or.inr ⟨0, rfl⟩, by decide⟩, ⟨Or.inr ⟨5, rfl⟩, by decide⟩, ⟨Or.inl rfl, by decide⟩, (by decide : (⟨0x1000, 5⟩ : Blk) ∈ _),
    ⟨Or.inr ⟨3, rfl⟩, by decide⟩, (by decide : (⟨0x1030, 1⟩ : Blk) ∈ _), trivial⟩

end Bfdev.Allocpool
