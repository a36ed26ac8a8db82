import Verif.Ringbuf.Props
/-! Records in a ring buffer (C06): as in a queue while there is room, and the newest instead of the oldest when the two do not fit together. -/
set_option linter.unusedSimpArgs false
namespace Bfdev.Ringbuf
open Bfdev.Fifo (Inv fresh)

theorem poke_inp (f : Ringbuf) (i len record : Nat) : recordPoke { f with inp := i } len record = (recordPoke f len record).map fun g => { g with inp := i } := by
  unfold recordPoke Fifo.recordPoke
  simp only [Option.bind_eq_bind, Option.pure_def]
  have e : Fifo.recordPlan { f with inp := i } = Fifo.recordPlan f := rfl
  rw [e]
  cases Fifo.recordPokeLoop f.esize (Fifo.recordPlan f).2 record (Fifo.recordPlan f).1 len f.data <;> rfl

theorem copy_inp (f : Ringbuf) (i : Nat) (buff : List Byte) (len off : Nat) : inCopy { f with inp := i } buff len off = (inCopy f buff len off).map fun g => { g with inp := i } := by
  unfold inCopy Fifo.inCopy
  simp only [Option.bind_eq_bind, Option.pure_def]
  have e : Fifo.copyPlan { f with inp := i } len off = Fifo.copyPlan f len off := rfl
  rw [e]
  generalize Fifo.copyPlan f len off = p
  cases rd buff 0 p.2.2 with
  | none => rfl
  | some a =>
    simp only [Option.bind_some]
    cases wr f.data p.1 a with
    | none => rfl
    | some d =>
      simp only [Option.bind_some]
      cases rd buff p.2.2 (p.2.1 - p.2.2) with
      | none => rfl
      | some b =>
        simp only [Option.bind_some]
        cases wr d 0 b <;> rfl

theorem poke_keeps {f g : Ringbuf} {len record : Nat} (e : recordPoke f len record = some g) : g.inp = f.inp := by
  unfold recordPoke Fifo.recordPoke at e
  simp only [Option.bind_eq_bind, Option.pure_def] at e
  obtain ⟨d, _, e⟩ := Option.bind_eq_some_iff.1 e
  cases e; rfl

/-- The end of `in_record`, after the records in the way have gone. -/
theorem store_record (f : Ringbuf) (buff : List Byte) (len record i : Nat) (hi : i = w64 (f.inp + w64 (len + record))) :
    ((recordPoke { f with inp := i } len record).bind fun g => (inCopy g buff len (w64 (f.inp + record))).bind fun g => some (g, len)) =
    (Fifo.recordPoke f len record).bind fun g => (Fifo.inCopy g buff len (w64 (g.inp + record))).bind fun g => some ({ g with inp := w64 (g.inp + w64 (len + record)) }, len) := by
  rw [poke_inp]
  show _ = (recordPoke f len record).bind fun g => (inCopy g buff len (w64 (g.inp + record))).bind fun g => some ({ g with inp := w64 (g.inp + w64 (len + record)) }, len)
  cases e : recordPoke f len record with
  | none => rfl
  | some g =>
    have hg := poke_keeps e
    simp only [Option.map_some, Option.bind_some]
    rw [copy_inp, hg]
    cases e2 : inCopy g buff len (w64 (f.inp + record)) with
    | none => rfl
    | some g2 =>
      have : g2.inp = g.inp := by
        unfold inCopy Fifo.inCopy at e2
        simp only [Option.bind_eq_bind, Option.pure_def] at e2
        obtain ⟨_, _, e2⟩ := Option.bind_eq_some_iff.1 e2
        obtain ⟨_, _, e2⟩ := Option.bind_eq_some_iff.1 e2
        obtain ⟨_, _, e2⟩ := Option.bind_eq_some_iff.1 e2
        obtain ⟨_, _, e2⟩ := Option.bind_eq_some_iff.1 e2
        cases e2; rfl
      simp only [Option.map_some, Option.bind_some]
      rw [hi, this, hg]

theorem discard_none (record fuel : Nat) (f : Ringbuf) : discardLoop record fuel f 0 = some f := by
  cases fuel <;> simp [discardLoop]

/-- **C06, partial.** While a record fits into the free space, a ring buffer stores it as a queue does. -/
theorem record_room_partial {f : Ringbuf} {k : Nat} (h : Inv f k) (buff : List Byte) (len record : Nat) (hfit : Fifo.valid f + (len + record) ≤ 2 ^ k) :
    inRecord f buff len record = Fifo.inRecord f buff len record := by
  have hsz := h.size_lt
  have hm := h.hmask
  have hin := h.hin
  have hout := h.hout
  have hun := h.unused_eq
  have hw : w64 (len + record) = len + record := by unfold w64; simp only [W64] at *; omega
  have hs : w64 (f.mask + 1) = 2 ^ k := by unfold w64; simp only [W64] at *; omega
  have hi : w64 (w64 (f.inp + record) + len) = w64 (f.inp + w64 (len + record)) := by
    rw [hw]; unfold w64; simp only [W64] at *; omega
  have hov : overflow { f with inp := w64 (w64 (f.inp + record) + len) } = 0 := by
    unfold overflow
    dsimp only
    rw [hs, hi, hw, if_neg]
    unfold Fifo.valid at hfit
    unfold wsub w64 at *; simp only [W64] at *; omega
  unfold inRecord Fifo.inRecord
  dsimp only
  rw [hs, show min len (2 ^ k) = len by omega, hov, discard_none, if_neg (by rw [hun, hw]; omega)]
  exact store_record f buff len record _ hi

/-- **C06, partial.** If the buffer holds one record and the new one does not fit beside it, the old record is dropped and the new one stored as in an empty buffer. -/
theorem record_replaces_partial {f : Ringbuf} {k a : Nat} (h : Inv f k) (hlen : recordPeek f 1 = some a) (hone : Fifo.valid f = a + 1) (buff : List Byte) (len : Nat) (hfit : len + 1 ≤ 2 ^ k)
    (hov : 2 ^ k < a + 1 + (len + 1)) : inRecord f buff len 1 = Fifo.inRecord (homing f) buff len 1 := by
  have hsz := h.size_lt
  have hm := h.hmask
  have hin := h.hin
  have hout := h.hout
  have hv := h.hvalid
  have hw : w64 (len + 1) = len + 1 := by unfold w64; simp only [W64] at *; omega
  have hs : w64 (f.mask + 1) = 2 ^ k := by unfold w64; simp only [W64] at *; omega
  have hi : w64 (w64 (f.inp + 1) + len) = w64 (f.inp + w64 (len + 1)) := by
    rw [hw]; unfold w64; simp only [W64] at *; omega
  have hovf : overflow { f with inp := w64 (w64 (f.inp + 1) + len) } = a + 1 + (len + 1) - 2 ^ k := by
    unfold overflow
    dsimp only
    rw [hs, hi, hw]
    have e : wsub (w64 (f.inp + (len + 1))) f.out = a + 1 + (len + 1) := by
      unfold Fifo.valid at hone hv
      unfold wsub w64 at *; simp only [W64] at *; omega
    rw [e, if_pos (by omega)]
  have hnew : w64 (f.out + w64 (1 + a)) = f.inp := by
    unfold Fifo.valid at hone hv
    unfold wsub w64 at *; simp only [W64] at *; omega
  have hd : discardLoop 1 (a + 1 + (len + 1) - 2 ^ k) { f with inp := w64 (w64 (f.inp + 1) + len) } (a + 1 + (len + 1) - 2 ^ k) =
      some { f with inp := w64 (w64 (f.inp + 1) + len), out := f.inp } := by
    obtain ⟨x, hx⟩ : ∃ x, a + 1 + (len + 1) - 2 ^ k = x + 1 := ⟨a + 1 + (len + 1) - 2 ^ k - 1, by omega⟩
    rw [hx]
    have hp : recordPeek { f with inp := w64 (w64 (f.inp + 1) + len) } 1 = some a := hlen
    simp only [discardLoop, Nat.add_eq_zero_iff, Nat.succ_ne_self, and_false, if_false, hp, Option.bind_eq_bind, Option.bind_some]
    rw [hnew, show x + 1 - min (w64 (1 + a)) (x + 1) = 0 by
      have : w64 (1 + a) = 1 + a := by unfold w64; simp only [W64] at *; omega
      rw [this]; omega]
    exact discard_none _ _ _
  have hempty : Fifo.unused (homing f) = 2 ^ k := by
    unfold Fifo.unused homing
    dsimp only
    rw [hs]
    unfold wsub; simp only [W64] at *; omega
  unfold inRecord Fifo.inRecord
  dsimp only
  rw [hs, show min len (2 ^ k) = len by omega, hovf, hd, if_neg (by rw [hempty, hw]; omega)]
  exact store_record (homing f) buff len 1 _ hi

/-- **C06, partial.** With one length byte, records below 256 elements and an element size that is a power of two: a record written to an empty ring buffer is read back,
and if before that a second one is written that does not fit beside it, that one is read back and the first is gone. -/
theorem ringbuf_record_roundtrip_partial {f : Ringbuf} {k e : Nat} (h : Inv f k) (he : f.esize = 2 ^ e) (hempty : f.inp = f.out)
    (buff buff2 : List Byte) (len len2 room : Nat) (hlen : len < 256) (hfit : len + 1 ≤ 2 ^ k) (hb : len * f.esize ≤ buff.length)
    (hlen2 : len2 < 256) (hfit2 : len2 + 1 ≤ 2 ^ k) (hb2 : len2 * f.esize ≤ buff2.length) :
    ∃ f' f'', inRecord f buff len 1 = some (f', len) ∧ outRecord f' room 1 = some (f'', min room len, buff.take (min room len * f.esize)) ∧ empty f'' = true ∧
      (2 ^ k < len + 1 + (len2 + 1) → ∃ g g', inRecord f' buff2 len2 1 = some (g, len2) ∧
        outRecord g room 1 = some (g', min room len2, buff2.take (min room len2 * f.esize)) ∧ empty g' = true) := by
  have hval : Fifo.valid f = 0 := by
    have := h.hout; unfold Fifo.valid wsub; rw [hempty]; simp only [W64] at *; omega
  have hsz := h.size_lt
  have hout := h.hout
  obtain ⟨f', f'', e1, e2, e3, e4, e5⟩ := Fifo.record_roundtrip_partial h he hempty buff len room hlen hfit hb
  obtain ⟨f1, f2, e1', e2', e3', e4', e5'⟩ := Fifo.record_roundtrip_partial h he hempty buff len 1000 hlen hfit hb
  rw [e1] at e1'
  cases e1'
  refine ⟨f', f'', by rw [record_room_partial h _ _ _ (by omega)]; exact e1, e2, by simp [empty, e5], fun hov => ?_⟩
  have hfr : f'.inp = w64 (f.inp + w64 (len + 1)) ∧ f'.out = f.out := by
    unfold Fifo.inRecord at e1
    split at e1
    · next c =>
      rw [h.unused_eq, hval] at c
      have : w64 (len + 1) = len + 1 := by unfold w64; simp only [W64] at *; omega
      omega
    · simp only [Option.bind_eq_bind, Option.pure_def] at e1
      obtain ⟨g, eg, e1⟩ := Option.bind_eq_some_iff.1 e1
      obtain ⟨g2, eg2, e1⟩ := Option.bind_eq_some_iff.1 e1
      have h1 : g.inp = f.inp ∧ g.out = f.out := by
        unfold Fifo.recordPoke at eg
        simp only [Option.bind_eq_bind, Option.pure_def] at eg
        obtain ⟨d, _, eg⟩ := Option.bind_eq_some_iff.1 eg
        cases eg; exact ⟨rfl, rfl⟩
      have h2 : g2.inp = g.inp ∧ g2.out = g.out := by
        unfold Fifo.inCopy at eg2
        simp only [Option.bind_eq_bind, Option.pure_def] at eg2
        obtain ⟨_, _, eg2⟩ := Option.bind_eq_some_iff.1 eg2
        obtain ⟨_, _, eg2⟩ := Option.bind_eq_some_iff.1 eg2
        obtain ⟨_, _, eg2⟩ := Option.bind_eq_some_iff.1 eg2
        obtain ⟨_, _, eg2⟩ := Option.bind_eq_some_iff.1 eg2
        cases eg2; exact ⟨rfl, rfl⟩
      cases e1
      dsimp only
      rw [h2.1, h2.2, h1.1, h1.2]
      exact ⟨rfl, rfl⟩
  have hv' : Fifo.valid f' = len + 1 := by
    have hin := h.hin
    unfold Fifo.valid wsub
    rw [hfr.1, hfr.2, hempty]
    unfold w64; simp only [W64] at *; omega
  unfold Fifo.outRecord at e2'
  have hne : Fifo.empty f' = false := by
    unfold Fifo.empty
    rw [beq_eq_false_iff_ne]
    intro c
    unfold Fifo.valid wsub at hv'
    rw [c] at hv'
    have := hfr.2
    simp only [W64] at *; omega
  rw [hne] at e2'
  simp only [Bool.false_eq_true, if_false, Option.bind_eq_bind, Option.pure_def] at e2'
  obtain ⟨dl, hdl, e2'⟩ := Option.bind_eq_some_iff.1 e2'
  obtain ⟨bs, _, e2'⟩ := Option.bind_eq_some_iff.1 e2'
  have e6 := Option.some.inj e2'
  have hd : dl = len := by
    have := congrArg (fun p => p.2.1) e6
    dsimp only at this
    omega
  subst hd
  have hf2 : f2 = { f' with out := w64 (f'.out + w64 (dl + 1)) } := (congrArg (fun p => p.1) e6).symm
  have hinv : Inv f' k := by
    rw [hf2] at e3'
    exact ⟨e3'.hmask, e3'.hin, by rw [hfr.2]; exact hout, e3'.hes, e3'.hdata, e3'.hbound, by rw [hv', e3'.hmask]; exact hfit⟩
  have hes : f'.esize = f.esize := by rw [← e4', hf2]
  have hhom : Inv (homing f') k := ⟨hinv.hmask, hinv.hin, hinv.hin, hinv.hes, hinv.hdata, hinv.hbound, by
    have : Fifo.valid (homing f') = 0 := by
      have := hinv.hin
      unfold Fifo.valid wsub homing; simp only [W64] at *; omega
    rw [this]; exact Nat.zero_le _⟩
  obtain ⟨g, g', a1, a2, _, _, a5⟩ := Fifo.record_roundtrip_partial (e := e) hhom (hes.trans he) rfl buff2 len2 room hlen2 hfit2 (show len2 * f'.esize ≤ _ by rw [hes]; exact hb2)
  refine ⟨g, g', ?_, ?_, by simp [empty, a5]⟩
  · rw [record_replaces_partial hinv hdl hv' buff2 len2 hfit2 hov]; exact a1
  · rw [← hes]; exact a2

/-- The hypotheses are met: an 8-byte ring buffer whose counters are about to wrap, a record of 4 and one of 5 bytes. -/
example : Inv (fresh 3 1 (2 ^ 64 - 2) [0, 0, 0, 0, 0, 0, 0, 0]) 3 ∧
    ((inRecord (fresh 3 1 (2 ^ 64 - 2) [0, 0, 0, 0, 0, 0, 0, 0]) [1, 2, 3, 4] 4 1).bind fun r => (inRecord r.1 [5, 6, 7, 8, 9] 5 1).bind fun r => (outRecord r.1 9 1).map fun r => r.2) =
      some (5, [5, 6, 7, 8, 9]) :=
  ⟨(Fifo.fresh_rep (by decide) (by decide) (by decide) (by decide)).inv, by decide +kernel⟩

end Bfdev.Ringbuf
