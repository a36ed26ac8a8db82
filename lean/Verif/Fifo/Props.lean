import Verif.Fifo.Lemmas
/-! Property theorems for the fifo (C05, C06). -/
set_option linter.unusedSimpArgs false
namespace Bfdev.Fifo

/-- One call on the fifo; `none` is an access outside the fifo's memory or the caller's buffer. -/
def step (f : Fifo) : Op → Option (Fifo × Res)
  | .put v => (put f v).map fun (f', b) => (f', .flag b)
  | .get => (get f).map fun (f', v) => (f', .elem v)
  | .peek => (peek f).map fun v => (f, .elem v)
  | .buffIn elems len => (inFlat f elems.flatten len).map fun (f', n) => (f', .count n)
  | .buffOut len => (outFlat f len).map fun (f', n, bs) => (f', .data n bs)
  | .buffPeek len => (peekFlat f len).map fun (n, bs) => (f, .data n bs)
  | .getLen => some (f, .count (valid f))
  | .checkEmpty => some (f, .flag (empty f))
  | .checkFull => some (f, .flag (full f))
  | .reset => some (reset f, .done)
  | .homing => some (homing f, .done)

/-- A history of calls. -/
def run (f : Fifo) : List Op → Option (List Res)
  | [] => some []
  | op :: ops => do
    let (f', r) ← step f op
    let rs ← run f' ops
    return r :: rs

/-- A fifo as set up by `BFDEV_FIFO_INIT` or `bfdev_fifo_dynamic_alloc` for `2^k` elements of `esize` bytes, but with the
free-running counters at an arbitrary common value `c` and arbitrary bytes in the buffer. -/
def fresh (k esize c : Nat) (data : List Byte) : Fifo :=
  { inp := c, out := c, mask := 2 ^ k - 1, esize, data }

theorem fresh_rep {k esize c : Nat} {data : List Byte} (hc : c < W64) (he : 1 ≤ esize)
    (hd : data.length = 2 ^ k * esize) (hb : data.length < 2 ^ 63) :
    Rep (fresh k esize c data) k { cap := 2 ^ k, items := [] } := by
  have hp := Nat.two_pow_pos k
  have hval : valid (fresh k esize c data) = 0 := by
    unfold valid fresh wsub; simp only [W64] at *; omega
  refine ⟨⟨?_, hc, hc, he, ?_, hb, ?_⟩, rfl, ?_, ?_, ?_⟩
  · show 2 ^ k - 1 + 1 = 2 ^ k; omega
  · show data.length = (2 ^ k - 1 + 1) * esize; rw [hd]; congr 1; omega
  · omega
  · rw [hval]; rfl
  · intro e he; simp at he
  · unfold contents; rw [hval]; simp [ringGet]

/-- One call agrees with the abstract queue and keeps the representation. -/
theorem step_refines {f : Fifo} {k : Nat} {q : Queue} (h : Rep f k q) (op : Op) (hok : op.Ok f.esize) :
    ∃ f', step f op = some (f', (q.step op).2) ∧ f'.esize = f.esize ∧ Rep f' k (q.step op).1 := by
  cases op with
  | put v =>
    obtain ⟨f', h1, h2, h3⟩ := h.put_eq v hok
    refine ⟨f', ?_, h2, ?_⟩
    · simp only [step, h1, Option.map_some, Queue.step]
      by_cases hc : q.items.length < q.cap <;> simp [hc]
    · simp only [Queue.step]
      by_cases hc : q.items.length < q.cap <;> simpa [hc] using h3
  | get =>
    cases hq : q.items with
    | nil =>
      refine ⟨f, ?_, rfl, ?_⟩
      · simp [step, get, h.empty_iff, hq, Queue.step]
      · simpa [Queue.step, hq] using h
    | cons v rest =>
      have hh := h.head_eq v rest hq
      refine ⟨{ f with out := w64 (f.out + 1) }, ?_, rfl, ?_⟩
      · simp [step, get, h.empty_iff, hq, Queue.step, hh]
      · have := h.advance 1 (by simp [hq])
        simpa [Queue.step, hq] using this
  | peek =>
    cases hq : q.items with
    | nil => exact ⟨f, by simp [step, peek, h.empty_iff, hq, Queue.step], rfl, by simpa [Queue.step, hq] using h⟩
    | cons v rest =>
      have hh := h.head_eq v rest hq
      exact ⟨f, by simp [step, peek, h.empty_iff, hq, Queue.step, hh], rfl, by simpa [Queue.step, hq] using h⟩
  | buffIn elems len =>
    obtain ⟨f', h1, h2, h3⟩ := h.inFlat_eq elems len hok.1 hok.2
    exact ⟨f', by simp [step, h1, Queue.step], h2, h3⟩
  | buffOut len =>
    refine ⟨{ f with out := w64 (f.out + min len q.items.length) }, ?_, rfl,
      h.advance _ (Nat.min_le_right _ _)⟩
    simp [step, outFlat, h.peekFlat_eq, Queue.step]
  | buffPeek len => exact ⟨f, by simp [step, h.peekFlat_eq, Queue.step], rfl, h⟩
  | getLen => exact ⟨f, by simp [step, h.hlen, Queue.step], rfl, h⟩
  | checkEmpty => exact ⟨f, by simp [step, h.empty_iff, Queue.step], rfl, h⟩
  | checkFull =>
    refine ⟨f, ?_, rfl, h⟩
    have h1 := h.valid_le
    have h2 := h.hlen; have h3 := h.hcap; have h4 := h.inv.hmask
    simp only [step, full, Queue.step, h2, h3]
    have : decide (f.mask < valid f) = (valid f == 2 ^ k) := by
      by_cases hc : valid f = 2 ^ k
      · have h5 : f.mask < valid f := by omega
        simp [hc, h5]; omega
      · have h5 : ¬ f.mask < valid f := by omega
        simp [hc, h5]
    rw [this]
  | reset =>
    exact ⟨reset f, rfl, rfl, h.cleared (reset f) rfl rfl rfl rfl (by simp [reset, W64])⟩
  | homing =>
    exact ⟨homing f, rfl, rfl, h.cleared (homing f) rfl rfl rfl rfl h.inv.hin⟩

theorem run_refines {f : Fifo} {k : Nat} {q : Queue} (h : Rep f k q) (ops : List Op)
    (hok : ∀ op ∈ ops, op.Ok f.esize) : run f ops = some (q.run ops) := by
  induction ops generalizing f q with
  | nil => rfl
  | cons op ops ih =>
    obtain ⟨f', h1, h2, h3⟩ := step_refines h op (hok op (List.mem_cons_self))
    have := ih h3 (fun o ho => by rw [h2]; exact hok o (List.mem_cons_of_mem _ ho))
    simp [run, h1, this, Queue.run]

/-- **C05.** Every history of calls on a fifo of `2^k` elements, starting with the free-running 64-bit counters at any
value, stays within the fifo's memory and the callers' buffers and returns exactly what a bounded FIFO queue returns. -/
theorem fifo_is_bounded_queue (k esize c : Nat) (data : List Byte) (hc : c < 2 ^ 64) (he : 1 ≤ esize)
    (hd : data.length = 2 ^ k * esize) (hb : data.length < 2 ^ 63) (ops : List Op)
    (hok : ∀ op ∈ ops, op.Ok esize) :
    run (fresh k esize c data) ops = some (Queue.run { cap := 2 ^ k, items := [] } ops) :=
  run_refines (fresh_rep hc he hd hb) ops hok

/-- The hypotheses are met, here with counters about to wrap. -/
example : run (fresh 1 2 (2 ^ 64 - 1) [0, 0, 0, 0])
    [.put [1, 2], .buffIn [[3, 4], [5, 6]] 2, .getLen, .buffOut 7, .get] =
    some [.flag true, .count 1, .count 2, .data 2 [1, 2, 3, 4], .elem none] := by decide +kernel
example : ∀ op ∈ [Op.put [1, 2], .buffIn [[3, 4], [5, 6]] 2, .getLen, .buffOut 7, .get], op.Ok 2 := by
  simp [Op.Ok]

/-! ### Records (C06) -/

/-- Full statement of C06 for a fifo set up as `f`: writing the records `recs` (each as long as announced, all fitting
into the fifo) and then reading them with a large enough buffer returns them unchanged and in order. -/
def writeAll (f : Fifo) (record : Nat) : List (List Byte) → Option Fifo
  | [] => some f
  | r :: rs => do
    let (f', _) ← inRecord f r (r.length / f.esize) record
    writeAll f' record rs

/-- Read `n` records with a buffer of `room` elements. -/
def readAll (f : Fifo) (room record : Nat) : Nat → Option (List (List Byte))
  | 0 => some []
  | n + 1 => do
    let (f', _, bs) ← outRecord f room record
    let rest ← readAll f' room record n
    return bs :: rest

/-- C06 for one configuration and one batch of records. -/
def RecordsPreserved (k esize c record : Nat) (data : List Byte) (recs : List (List Byte)) : Prop :=
  ∀ room, (∀ r ∈ recs, r.length / esize ≤ room) →
    ((writeAll (fresh k esize c data) record recs).bind fun f => readAll f room record recs.length) = some recs

/-- The code violates C06: with one length byte per record, the second record's length is stored over the first one's
(the length is poked at the read index), so two records `[1]`, `[2,3]` written to an empty 8-byte fifo do not come back. -/
theorem record_order_violated : ¬ RecordsPreserved 3 1 0 1 [0, 0, 0, 0, 0, 0, 0, 0] [[1], [2, 3]] := by
  intro h
  have := h 8 (by decide)
  revert this
  decide

/-- What is read back in that case: the first record swallows bytes of the second. -/
theorem record_order_violated_witness :
    ((writeAll (fresh 3 1 0 [0, 0, 0, 0, 0, 0, 0, 0]) 1 [[1], [2, 3]]).bind fun f => readAll f 8 1 1) =
      some [[1, 0]] := by decide

/-- The code violates C06 for two length bytes even on an empty fifo: the length is written low byte first and read high
byte first, so a one-byte record is announced as 256 bytes and the reader is handed more than was written. -/
theorem record_length_byte_order_violated : ¬ RecordsPreserved 3 1 0 2 [0, 0, 0, 0, 0, 0, 0, 0] [[7]] := by
  intro h
  have := h 8 (by decide)
  revert this
  decide

/-- **C06, partial.** With one length byte (`record = 1`), records shorter than 256 elements and an element size that is a
power of two, a record written to an *empty* fifo is read back unchanged (cut to the reader's buffer), and the fifo
is empty again — from any counter value, so every write/read alternation works.  Missing: two or more records in the
fifo at once, and more than one length byte; both are violated, see above. -/
theorem record_roundtrip_partial {f : Fifo} {k e : Nat} (h : Inv f k) (he : f.esize = 2 ^ e) (hempty : f.inp = f.out)
    (buff : List Byte) (len room : Nat) (hlen : len < 256) (hfit : len + 1 ≤ 2 ^ k)
    (hb : len * f.esize ≤ buff.length) :
    ∃ f' f'', inRecord f buff len 1 = some (f', len) ∧
      outRecord f' room 1 = some (f'', min room len, buff.take (min room len * f.esize)) ∧
      Inv f'' k ∧ f''.esize = f.esize ∧ f''.inp = f''.out := by
  have hsz := h.size_lt
  have hval : valid f = 0 := by
    have := h.hout; unfold valid wsub; rw [hempty]; simp only [W64] at *; omega
  have hun := h.unused_eq
  rw [hval] at hun
  have hm := h.hmask
  have hS : 2 ^ k * 2 ^ e = 2 ^ (k + e) := (Nat.pow_add 2 k e).symm
  have hdl : f.data.length = 2 ^ (k + e) := by rw [h.hdata, hm, he, hS]
  have hbig : 2 ^ (k + e) < 2 ^ 63 := by rw [← hdl]; exact h.hbound
  -- where the length byte goes
  have hplan : (recordPlan f).1 &&& (recordPlan f).2 = f.out % 2 ^ k * f.esize := by
    unfold recordPlan
    by_cases h1 : f.esize = 1
    · simp only [h1, ne_eq, not_true_eq_false, if_false]
      rw [mask_mod hm, Nat.mul_one]
    · simp only [ne_eq, h1, not_false_eq_true, if_true]
      have e1 : w64 (w64 (f.mask * f.esize) + wsub f.esize 1) + 1 = 2 ^ (k + e) := by
        have e2 : f.mask * f.esize + f.esize = 2 ^ (k + e) := by
          rw [← Nat.succ_mul, ← hS, ← hm, ← he]
        have := h.hes
        generalize f.mask * f.esize = mm at *
        unfold w64 wsub; simp only [W64] at *; omega
      rw [mask_mod e1, w64_mod hbig, he, ← hS, Nat.mul_mod_mul_right]
  have hst := h.start_lt f.out
  generalize hp : f.out % 2 ^ k * f.esize = p at *
  -- state after poking the length
  obtain ⟨d1, hd1⟩ : ∃ d1, d1 = f.data.take p ++ [BitVec.ofNat 8 len] ++ f.data.drop (p + 1) := ⟨_, rfl⟩
  have hd1l : d1.length = f.data.length := by
    rw [hd1]; exact splice_length f.data p [BitVec.ofNat 8 len] (by simp; omega)
  have hd1p : d1[p]? = some (BitVec.ofNat 8 len) := by
    rw [hd1]
    have := splice_getElem? f.data p [BitVec.ofNat 8 len] (by simp; omega) p
    simp only [List.length_singleton] at this
    rw [this, if_pos (by omega)]; simp
  have hpoke : recordPoke f len 1 = some { f with data := d1 } := by
    unfold recordPoke
    simp only [recordPokeLoop, hplan]
    rw [wr_eq_some (by simp; omega)]
    simp [hd1]
  have hinv1 : Inv { f with data := d1 } k :=
    ⟨hm, h.hin, h.hout, h.hes, by rw [hd1l]; exact h.hdata, by rw [hd1l]; exact h.hbound, h.hvalid⟩
  have hlk : len ≤ 2 ^ k := by omega
  have hin : inRecord f buff len 1 = some ({ f with
      data := ringPut d1 (w64 (f.inp + 1) % 2 ^ k * f.esize) (buff.take (len * f.esize)),
      inp := w64 (f.inp + w64 (len + 1)) }, len) := by
    unfold inRecord
    have hw : w64 (len + 1) = len + 1 := by unfold w64; simp only [W64]; omega
    rw [hw, if_neg (by omega), hpoke]
    simp only [Option.bind_eq_bind, Option.bind_some, Option.pure_def]
    rw [hinv1.inCopy_eq hlk _ _ hb]
    simp
  have hw : w64 (len + 1) = len + 1 := by unfold w64; simp only [W64]; omega
  rw [hw] at hin
  generalize hd2 : ringPut d1 (w64 (f.inp + 1) % 2 ^ k * f.esize) (buff.take (len * f.esize)) = d2 at hin
  have hq := h.start_lt (w64 (f.inp + 1))
  have hle : len * f.esize ≤ f.data.length := h.len_le hlk
  have hle1 : (len + 1) * f.esize ≤ f.data.length := h.len_le hfit
  rw [Nat.add_mul, Nat.one_mul] at hle1
  have hqpos := pos_adv (k := k) (out := f.inp) (l := 1) hsz h.hes (by omega)
  rw [hempty, hp, Nat.one_mul, ← hm, ← h.hdata, hm] at hqpos
  rw [hempty] at hq hd2
  generalize hqq : w64 (f.out + 1) % 2 ^ k * f.esize = qq at *
  have hbt : (buff.take (len * f.esize)).length = len * f.esize := by rw [List.length_take]; omega
  have hd2l : d2.length = f.data.length := by
    rw [← hd2, ringPut_length _ _ _ (by omega) (by rw [hbt]; omega), hd1l]
  have hes := h.hes
  have hd2p : d2[p]? = some (BitVec.ofNat 8 len) := by
    rw [← hd2, ringPut_getElem? _ _ _ (by omega) (by rw [hbt]; omega), hbt, hd1l]
    rw [if_neg, if_neg, hd1p]
    · split at hqpos <;> omega
    · split at hqpos <;> omega
  have hd2g : ringGet d2 qq (len * f.esize) = buff.take (len * f.esize) := by
    rw [← hd2]
    have := ringGet_put d1 qq 0 qq (buff.take (len * f.esize)) (by omega) (by rw [hbt]; omega)
      (by rw [if_pos (by omega)]; rfl)
    rw [hbt, Nat.zero_add] at this
    rw [this]; simp [ringGet]
  have hinv2 : Inv { f with data := d2, inp := w64 (f.inp + (len + 1)) } k := by
    refine ⟨hm, Nat.mod_lt _ (by simp [W64]), h.hout, h.hes, by rw [hd2l]; exact h.hdata,
      by rw [hd2l]; exact h.hbound, ?_⟩
    have := h.hout; rw [hempty]
    unfold valid wsub w64; simp only [W64] at *; omega
  have hne : empty { f with data := d2, inp := w64 (f.inp + (len + 1)) } = false := by
    have := h.hout
    simp only [empty, beq_eq_false_iff_ne, ne_eq]; rw [hempty]
    unfold w64; simp only [W64] at *; omega
  have hpeek : recordPeek { f with data := d2, inp := w64 (f.inp + (len + 1)) } 1 = some len := by
    have e1 : recordPlan { f with data := d2, inp := w64 (f.inp + (len + 1)) } = recordPlan f := rfl
    unfold recordPeek
    simp only [e1, recordPeekLoop, hplan, hd2p]
    simp [w64, W64]; omega
  refine ⟨_, { f with data := d2, inp := w64 (f.inp + (len + 1)), out := w64 (f.out + (len + 1)) }, hin, ?_,
    ⟨hm, Nat.mod_lt _ (by simp [W64]), Nat.mod_lt _ (by simp [W64]), h.hes, by rw [hd2l]; exact h.hdata,
      by rw [hd2l]; exact h.hbound, ?_⟩, rfl, by simp [hempty]⟩
  · unfold outRecord
    rw [hne, hpeek]
    simp only [Bool.false_eq_true, if_false, Option.bind_eq_bind, Option.bind_some, Option.pure_def, hw]
    rw [hinv2.outCopy_eq (by omega)]
    simp only [Option.bind_some]
    rw [hqq]
    have hml : min room len * f.esize ≤ len * f.esize := Nat.mul_le_mul_right _ (Nat.min_le_right _ _)
    rw [ringGet_take _ _ (len * f.esize) _ hml, hd2g, List.take_take, Nat.min_eq_left hml]
  · have : valid { f with data := d2, inp := w64 (f.inp + (len + 1)), out := w64 (f.out + (len + 1)) } = 0 := by
      unfold valid wsub w64; simp only [hempty, W64] at *; omega
    rw [this]; omega

/-- The hypotheses are met by an empty 8-byte fifo. -/
example : Inv (fresh 3 1 6 [0, 0, 0, 0, 0, 0, 0, 0]) 3 ∧
    (inRecord (fresh 3 1 6 [0, 0, 0, 0, 0, 0, 0, 0]) [5, 6, 7] 3 1).isSome :=
  ⟨(fresh_rep (by decide) (by decide) (by decide) (by decide)).inv, by decide⟩

/-- C06. Peeking at a record shows exactly what taking it would return, whatever the fifo holds, and reads outside the memory if and only if taking it does. -/
theorem peek_record_is_out (f : Fifo) (len record : Nat) : peekRecord f len record = (outRecord f len record).map (·.2) := by
  unfold peekRecord outRecord
  split
  · rfl
  · cases recordPeek f record with
    | none => rfl
    | some d =>
      show Option.bind (outCopy f (min len d) (w64 (f.out + record))) _ = Option.map _ (Option.bind (outCopy f (min len d) (w64 (f.out + record))) _)
      cases outCopy f (min len d) (w64 (f.out + record)) <;> rfl

/-- Putting a single value into a record fifo of 4-byte elements passes the byte size of the value as a number of elements
(`sizeof(__tvalue)`, include/bfdev/fifo.h:365-366): 16 bytes are read from a 4-byte variable. -/
theorem record_put_overread : inRecord (fresh 3 4 0 (List.replicate 32 0)) [1, 2, 3, 4] 4 1 = none := by decide

end Bfdev.Fifo
