import Verif.Fifo.Props
import Verif.Ringbuf.Model
import Verif.Ringbuf.Spec
/-! Property theorems for the ring buffer (C07). -/
set_option linter.unusedSimpArgs false
namespace Bfdev.Ringbuf
open Bfdev.Fifo (Op Res Queue Rep fresh)

/-- One call on the ring buffer. -/
def step (f : Ringbuf) : Op → Option (Ringbuf × Res)
  | .put v => (put f v).map fun (f', b) => (f', .flag b)
  | .get => (get f).map fun (f', v) => (f', .elem v)
  | .peek => (peek f).map fun v => (f, .elem v)
  | .buffIn elems len => (inFlat f elems.flatten len).map fun (f', n) => (f', .count n)
  | .buffOut len => (outFlat f len).map fun (f', n, bs) => (f', .data n bs)
  | .buffPeek len => (peekFlat f len).map fun (n, bs) => (f, .data n bs)
  | .getLen => some (f, .count (valid f))
  | .checkEmpty => some (f, .flag (empty f))
  | .checkFull => some (f, .flag (full f))
  | .reset => some (reset f, .done)
  | .homing => some (homing f, .done)

def run (f : Ringbuf) : List Op → Option (List Res)
  | [] => some []
  | op :: ops => do
    let (f', r) ← step f op
    let rs ← run f' ops
    return r :: rs

theorem full_eq {f : Ringbuf} {k : Nat} {q : Queue} (h : Rep f k q) :
    full f = (q.items.length == q.cap) := by
  have h1 := h.valid_le
  have h2 := h.hlen; have h3 := h.hcap; have h4 := h.inv.hmask
  have h6 : valid f = Fifo.valid f := rfl
  unfold full
  rw [h6, h2, h3]
  clear h6
  by_cases hc : Fifo.valid f = 2 ^ k
  · have h5 : f.mask < Fifo.valid f := by omega
    simp [hc]; omega
  · have h5 : ¬ f.mask < Fifo.valid f := by omega
    rw [show (Fifo.valid f == 2 ^ k) = false by simpa using hc]
    exact decide_eq_false h5

theorem lastN_append {α} (n : Nat) (a b : List α) (hb : b.length ≤ n) :
    lastN n (a ++ b) = a.drop (a.length + b.length - n) ++ b := by
  unfold lastN
  rw [List.length_append, List.drop_append_of_le_length (by omega)]

/-- Writing `n ≤ cap` elements: the state the code reaches represents the newest elements. -/
theorem write_rep {f : Ringbuf} {k : Nat} {q : Queue} (h : Rep f k q) (els : List (List Byte))
    (hels : ∀ e ∈ els, e.length = f.esize) (hn : els.length ≤ q.cap) :
    Rep { f with data := ringPut f.data (f.inp % 2 ^ k * f.esize) els.flatten, inp := w64 (f.inp + els.length),
                 out := w64 (f.out + (q.items.length + els.length - q.cap)) } k
      { q with items := lastN q.cap (q.items ++ els) } := by
  have hv := h.valid_le
  have h2 := h.hlen; have h3 := h.hcap
  have h1 := h.advance (q.items.length + els.length - q.cap) (by omega)
  have h4 := h1.append els hels (by simp; omega)
  rw [lastN_append _ _ _ hn]
  exact h4

theorem step_refines {f : Ringbuf} {k : Nat} {q : Queue} (h : Rep f k q) (op : Op) (hok : op.Ok f.esize) :
    ∃ f', step f op = some (f', (specStep q op).2) ∧ f'.esize = f.esize ∧ Rep f' k (specStep q op).1 := by
  have hv := h.valid_le
  have hlen := h.hlen; have hcap := h.hcap; have hm := h.inv.hmask
  have hin := h.inv.hin; have hout := h.inv.hout; have hsz := h.inv.size_lt
  cases op with
  | put v =>
    have hok : v.length = f.esize := hok
    have hw := write_rep h [v] (by simpa using hok) (by have := Nat.two_pow_pos k; simp; omega)
    have hmul : f.inp % 2 ^ k * f.esize + f.esize ≤ f.data.length := by
      rw [h.inv.hdata, h.inv.hmask, ← Nat.succ_mul]
      exact Nat.mul_le_mul_right _ (Nat.mod_lt _ (Nat.two_pow_pos k))
    have e1 : ringPut f.data (f.inp % 2 ^ k * f.esize) ([v] : List (List Byte)).flatten =
        f.data.take (f.inp % 2 ^ k * f.esize) ++ v ++ f.data.drop (f.inp % 2 ^ k * f.esize + v.length) := by
      unfold ringPut
      have e2 : ([v] : List (List Byte)).flatten = v := by simp
      have e3 : min v.length (f.data.length - f.inp % 2 ^ k * f.esize) = v.length := by omega
      rw [e2, e3]; simp
    rw [e1] at hw
    refine ⟨_, ?_, ?_, hw⟩
    · have hf := full_eq h
      have hwr : wr f.data ((f.inp &&& f.mask) * f.esize) v =
          some (f.data.take (f.inp % 2 ^ k * f.esize) ++ v ++ f.data.drop (f.inp % 2 ^ k * f.esize + v.length)) := by
        rw [Fifo.mask_mod hm]; exact wr_eq_some (by omega)
      by_cases hc : q.items.length = q.cap
      · have hcb : (q.items.length == q.cap) = true := by simpa using hc
        have e4 : q.items.length + [v].length - q.cap = 1 := by simp; omega
        have e5 : full f = true := by rw [hf]; exact hcb
        simp only [step, put, e5, if_true, hwr, specStep, hcb, e4]
        rfl
      · have hcb : (q.items.length == q.cap) = false := by simpa using hc
        have e4 : q.items.length + [v].length - q.cap = 0 := by simp; omega
        have e5 : full f = false := by rw [hf]; exact hcb
        have e6 : w64 (f.out + 0) = f.out := by unfold w64; simp only [W64] at *; omega
        simp only [step, put, e5, Bool.false_eq_true, if_false, hwr, specStep, hcb, e4, e6]
        rfl
    · rfl
  | buffIn elems len =>
    obtain ⟨hels, hl⟩ := hok
    have htl : (elems.take (min len q.cap)).length = min len q.cap := by rw [List.length_take]; omega
    have hw := write_rep h (elems.take (min len q.cap)) (fun e he => hels e (List.mem_of_mem_take he)) (by omega)
    have hfl := Fifo.flatten_length hels
    have hsize : w64 (f.mask + 1) = q.cap := by rw [hm, hcap]; unfold w64; simp only [W64]; omega
    have hcopy := h.inv.inCopy_eq (len := min len q.cap) (by omega) f.inp elems.flatten
      (by rw [hfl]; exact Nat.mul_le_mul_right _ (by omega))
    rw [htl, Fifo.flatten_take hels] at hw
    refine ⟨_, ?_, ?_, hw⟩
    · simp only [step, inFlat, hsize, inCopy, hcopy, Option.bind_eq_bind, Option.bind_some, Option.pure_def,
        Option.map_some, specStep]
      have hov : overflow { f with
          data := ringPut f.data (f.inp % 2 ^ k * f.esize) (elems.flatten.take (min len q.cap * f.esize)),
          inp := w64 (f.inp + min len q.cap) } = q.items.length + min len q.cap - q.cap := by
        unfold overflow
        simp only [hsize]
        have hvv : Fifo.valid f = wsub f.inp f.out := rfl
        rw [hlen, hvv]; rw [hvv] at hv
        rw [hcap] at *
        generalize 2 ^ k = s at *
        have hmn : min len s ≤ s := Nat.min_le_right _ _
        generalize min len s = n at *
        unfold wsub w64 at *
        simp only [W64] at *
        split <;> omega
      rw [hov]
      by_cases hz : q.items.length + min len q.cap - q.cap = 0
      · have e6 : w64 (f.out + 0) = f.out := by unfold w64; simp only [W64] at *; omega
        rw [Nat.add_zero] at e6
        simp [hz, e6]
      · simp [hz]
    · rfl
  | get => exact Fifo.step_refines h .get trivial
  | peek => exact Fifo.step_refines h .peek trivial
  | buffOut len => exact Fifo.step_refines h (.buffOut len) trivial
  | buffPeek len => exact Fifo.step_refines h (.buffPeek len) trivial
  | getLen => exact Fifo.step_refines h .getLen trivial
  | checkEmpty => exact Fifo.step_refines h .checkEmpty trivial
  | checkFull => exact Fifo.step_refines h .checkFull trivial
  | reset => exact Fifo.step_refines h .reset trivial
  | homing => exact Fifo.step_refines h .homing trivial

/-- **C07.** Every history of calls on a ring buffer of `2^k` elements, with the free-running counters starting anywhere, stays
within memory and returns what the "newest `2^k` elements of the stream" specification returns. -/
theorem ringbuf_keeps_newest (k esize c : Nat) (data : List Byte) (hc : c < 2 ^ 64) (he : 1 ≤ esize)
    (hd : data.length = 2 ^ k * esize) (hb : data.length < 2 ^ 63) (ops : List Op)
    (hok : ∀ op ∈ ops, op.Ok esize) :
    run (fresh k esize c data) ops = some (specRun { cap := 2 ^ k, items := [] } ops) := by
  have key : ∀ (ops : List Op) (f : Ringbuf) (q : Queue), Rep f k q → f.esize = esize →
      (∀ op ∈ ops, op.Ok esize) → run f ops = some (specRun q ops) := by
    intro ops
    induction ops with
    | nil => intros; rfl
    | cons op ops ih =>
      intro f q h hes hok
      obtain ⟨f', h1, h2, h3⟩ := step_refines h op (by rw [hes]; exact hok op (List.mem_cons_self))
      have := ih f' _ h3 (by rw [h2, hes]) (fun o ho => hok o (List.mem_cons_of_mem _ ho))
      simp [run, h1, this, specRun]
  exact key ops _ _ (Fifo.fresh_rep hc he hd hb) rfl hok

theorem lastN_suffix {α} (n : Nat) (l : List α) : lastN n l <:+ l := List.drop_suffix _ _

theorem specStep_cap (q : Queue) (op : Op) : (specStep q op).1.cap = q.cap := by
  cases op <;> simp only [specStep]
  split <;> rfl

/-- After any history the readable elements are a suffix of everything written, and at most `cap` of them. -/
theorem contents_suffix_of_stream (cap : Nat) (ops : List Op) :
    (specFinal { cap, items := [] } ops).items <:+ (ops.map (written cap)).flatten ∧
    (specFinal { cap, items := [] } ops).items.length ≤ cap := by
  have key : ∀ (ops : List Op) (q : Queue) (pre : List (List Byte)), q.cap = cap → q.items <:+ pre →
      q.items.length ≤ cap → (specFinal q ops).items <:+ pre ++ (ops.map (written cap)).flatten ∧
      (specFinal q ops).items.length ≤ cap := by
    intro ops
    induction ops with
    | nil => intro q pre hc hs hl; simpa [specFinal] using ⟨hs, hl⟩
    | cons op ops ih =>
      intro q pre hc hs hl
      have hstep : (specStep q op).1.items <:+ pre ++ written cap op ∧ (specStep q op).1.items.length ≤ cap := by
        have hap : ∀ l : List (List Byte), q.items ++ l <:+ pre ++ l := by
          intro l; obtain ⟨t, ht⟩ := hs; exact ⟨t, by rw [← ht]; simp⟩
        cases op with
        | put v =>
          simp only [specStep, written, hc]
          exact ⟨(lastN_suffix _ _).trans (hap _), by unfold lastN; simp; omega⟩
        | buffIn elems len =>
          simp only [specStep, written, hc]
          exact ⟨(lastN_suffix _ _).trans (hap _), by unfold lastN; simp; omega⟩
        | get =>
          simp only [specStep, written, List.append_nil]
          split
          · exact ⟨hs, hl⟩
          · rename_i v rest hq
            rw [hq] at hs hl
            exact ⟨(List.suffix_cons v rest).trans hs, by simp at hl ⊢; omega⟩
        | buffOut len =>
          simp only [specStep, written, List.append_nil]
          exact ⟨(List.drop_suffix _ _).trans hs, by simp; omega⟩
        | reset => simp [specStep, written]
        | homing => simp [specStep, written]
        | peek => simpa [specStep, written] using ⟨hs, hl⟩
        | buffPeek len => simpa [specStep, written] using ⟨hs, hl⟩
        | getLen => simpa [specStep, written] using ⟨hs, hl⟩
        | checkEmpty => simpa [specStep, written] using ⟨hs, hl⟩
        | checkFull => simpa [specStep, written] using ⟨hs, hl⟩
      have := ih (specStep q op).1 (pre ++ written cap op) (by rw [specStep_cap, hc]) hstep.1 hstep.2
      simpa [specFinal, List.append_assoc] using this
  have := key ops { cap, items := [] } [] rfl (by simp) (by simp)
  simpa using this

/-- Without reads, exactly the newest `cap` elements of the stream are readable. -/
theorem contents_newest_of_stream (cap : Nat) (ops : List Op)
    (hw : ∀ op ∈ ops, ∃ v elems len, op = .put v ∨ op = .buffIn elems len) :
    (specFinal { cap, items := [] } ops).items = lastN cap (ops.map (written cap)).flatten := by
  have key : ∀ (ops : List Op) (q : Queue) (pre : List (List Byte)), q.cap = cap → q.items = lastN cap pre →
      (∀ op ∈ ops, ∃ v elems len, op = .put v ∨ op = .buffIn elems len) →
      (specFinal q ops).items = lastN cap (pre ++ (ops.map (written cap)).flatten) := by
    have hll : ∀ (a b : List (List Byte)), lastN cap (lastN cap a ++ b) = lastN cap (a ++ b) := by
      intro a b
      unfold lastN
      simp only [List.length_append, List.length_drop, List.drop_append, List.drop_drop]
      congr 2 <;> omega
    intro ops
    induction ops with
    | nil => intro q pre hc hs _; simpa [specFinal] using hs
    | cons op ops ih =>
      intro q pre hc hs hw
      have hstep : (specStep q op).1.items = lastN cap (pre ++ written cap op) := by
        obtain ⟨v, elems, len, h | h⟩ := hw op (List.mem_cons_self)
        · subst h; simp only [specStep, written, hc, hs, hll]
        · subst h; simp only [specStep, written, hc, hs, hll]
      have := ih (specStep q op).1 _ (by rw [specStep_cap, hc]) hstep (fun o ho => hw o (List.mem_cons_of_mem _ ho))
      simpa [specFinal, List.append_assoc] using this
  have := key ops { cap, items := [] } [] rfl (by simp [lastN]) hw
  simpa using this

/-- A concrete case: three elements written to a two-element ring buffer whose counters are about to wrap. -/
example : run (fresh 1 1 (2 ^ 64 - 1) [0, 0]) [.put [1], .buffIn [[2], [3]] 2, .getLen, .buffOut 9] =
    some [.flag false, .count 2, .count 2, .data 2 [2, 3]] := by decide +kernel
example : ∀ op ∈ [Op.put [1], .buffIn [[2], [3]] 2, .getLen, .buffOut 9], op.Ok 1 := by simp [Op.Ok]

/-! ### Records -/

/-- The record variant does not keep records apart: the length byte of the second record is stored at the read index, over
the length of the first, so after writing `[1]` and `[2,3]` the first read returns two bytes. -/
theorem ringbuf_record_order_violated :
    ((inRecord (fresh 3 1 0 [0, 0, 0, 0, 0, 0, 0, 0]) [1] 1 1).bind fun (f, _) =>
      (inRecord f [2, 3] 2 1).bind fun (f, _) => (outRecord f 8 1).map (·.2)) = some (2, [1, 0]) := by decide

end Bfdev.Ringbuf
