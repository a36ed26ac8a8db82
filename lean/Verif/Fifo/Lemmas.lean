import Verif.Common.Ring
import Verif.Fifo.Model
import Verif.Fifo.Spec
set_option linter.unusedSimpArgs false
namespace Bfdev.Fifo

/-- Well-formed fifo of `2^k` elements. -/
structure Inv (f : Fifo) (k : Nat) : Prop where
  hmask : f.mask + 1 = 2 ^ k
  hin : f.inp < W64
  hout : f.out < W64
  hes : 1 ≤ f.esize
  hdata : f.data.length = (f.mask + 1) * f.esize
  hbound : f.data.length < 2 ^ 63
  hvalid : valid f ≤ f.mask + 1

theorem mask_mod {x k m : Nat} (h : m + 1 = 2 ^ k) : x &&& m = x % 2 ^ k := by
  have : m = 2 ^ k - 1 := by omega
  rw [this, Nat.and_two_pow_sub_one_eq_mod]

theorem two_pow_dvd {k : Nat} (h : 2 ^ k < 2 ^ 63) : 2 ^ k ∣ W64 := by
  have hk : k < 63 := (Nat.pow_lt_pow_iff_right (by omega)).1 h
  exact Nat.pow_dvd_pow 2 (show k ≤ 64 by omega)

theorem w64_mod {k x : Nat} (h : 2 ^ k < 2 ^ 63) : w64 x % 2 ^ k = x % 2 ^ k :=
  Nat.mod_mod_of_dvd x (two_pow_dvd h)

/-- Advancing an index advances the byte offset circularly. -/
theorem pos_adv {k out l e : Nat} (h : 2 ^ k < 2 ^ 63) (he : 1 ≤ e) (hl : l ≤ 2 ^ k) :
    w64 (out + l) % 2 ^ k * e =
      if out % 2 ^ k * e + l * e < 2 ^ k * e then out % 2 ^ k * e + l * e
      else out % 2 ^ k * e + l * e - 2 ^ k * e := by
  rw [w64_mod h, Nat.add_mod, ← Nat.add_mul]
  have h1 : out % 2 ^ k < 2 ^ k := Nat.mod_lt _ (Nat.two_pow_pos k)
  generalize out % 2 ^ k = a at *
  generalize 2 ^ k = s at *
  have hlt : (a + l) * e < s * e ↔ a + l < s := Nat.mul_lt_mul_right (by omega)
  by_cases hc : a + l < s
  · rw [if_pos (hlt.2 hc)]
    congr 1
    rw [Nat.mod_eq_of_lt (show l < s by omega), Nat.mod_eq_of_lt hc]
  · rw [if_neg (by rw [hlt]; exact hc), ← Nat.sub_mul]
    congr 1
    rcases Nat.lt_or_ge l s with h2 | h2
    · rw [Nat.mod_eq_of_lt h2, Nat.mod_eq_sub_mod (by omega), Nat.mod_eq_of_lt (by omega)]
    · have : l = s := by omega
      subst this
      rw [Nat.mod_self, Nat.add_zero, Nat.mod_eq_of_lt h1]; omega

namespace Inv
variable {f : Fifo} {k : Nat}

theorem size_lt (h : Inv f k) : 2 ^ k < 2 ^ 63 := by
  have h1 := h.hdata; have h2 := h.hbound; have h3 := h.hmask; have h4 := h.hes
  rw [h3] at h1
  have : 2 ^ k * 1 ≤ 2 ^ k * f.esize := Nat.mul_le_mul_left _ h4
  omega

theorem inp_eq (h : Inv f k) : f.inp = w64 (f.out + valid f) := by
  have h1 := h.hin; have h2 := h.hout
  unfold valid wsub w64; simp only [W64] at *; omega

theorem unused_eq (h : Inv f k) : unused f = 2 ^ k - valid f := by
  have h1 := h.hvalid; have h2 := h.hmask; have h3 := h.size_lt
  show wsub (w64 (f.mask + 1)) (valid f) = _
  unfold wsub w64; simp only [W64] at *; omega

/-- Byte offset of the oldest element. -/
theorem start_lt (h : Inv f k) (x : Nat) : x % 2 ^ k * f.esize < f.data.length := by
  rw [h.hdata, h.hmask]
  exact Nat.mul_lt_mul_of_pos_right (Nat.mod_lt _ (Nat.two_pow_pos k)) h.hes

theorem plan (h : Inv f k) {len : Nat} (hl : len ≤ 2 ^ k) (offset : Nat) :
    copyPlan f len offset =
      (offset % 2 ^ k * f.esize, len * f.esize,
        min (len * f.esize) (f.data.length - offset % 2 ^ k * f.esize)) := by
  have h1 := h.size_lt
  have h2 := h.start_lt offset
  have h3 := h.hbound
  have h4 := h.hdata
  have h5 : len * f.esize ≤ (f.mask + 1) * f.esize := by rw [h.hmask]; exact Nat.mul_le_mul_right _ hl
  have h6 := h.hmask
  have h7 := h.hes
  have e1 : w64 (f.mask + 1) = f.mask + 1 := by unfold w64; rw [Nat.mod_eq_of_lt]; simp only [W64]; omega
  unfold copyPlan
  simp only [mask_mod h.hmask, e1]
  by_cases he : f.esize = 1
  · simp only [he, Nat.mul_one] at *
    simp only [ne_eq, not_true_eq_false, if_false]
    have : wsub (f.mask + 1) (offset % 2 ^ k) = f.data.length - offset % 2 ^ k := by
      unfold wsub; simp only [W64]; omega
    rw [this]
  · have a1 : w64 (offset % 2 ^ k * f.esize) = offset % 2 ^ k * f.esize := by
      unfold w64; rw [Nat.mod_eq_of_lt]; simp only [W64]; omega
    have a2 : w64 ((f.mask + 1) * f.esize) = f.data.length := by
      unfold w64; rw [Nat.mod_eq_of_lt]; exact h4.symm; simp only [W64]; omega
    have a3 : w64 (len * f.esize) = len * f.esize := by
      unfold w64; rw [Nat.mod_eq_of_lt]; simp only [W64]; omega
    simp only [ne_eq, he, not_false_eq_true, if_true, a1, a2, a3]
    have : wsub f.data.length (offset % 2 ^ k * f.esize) = f.data.length - offset % 2 ^ k * f.esize := by
      unfold wsub; simp only [W64]; omega
    rw [this]

theorem len_le (h : Inv f k) {len : Nat} (hl : len ≤ 2 ^ k) : len * f.esize ≤ f.data.length := by
  rw [h.hdata, h.hmask]; exact Nat.mul_le_mul_right _ hl

theorem outCopy_eq (h : Inv f k) {len : Nat} (hl : len ≤ 2 ^ k) (offset : Nat) :
    outCopy f len offset = some (ringGet f.data (offset % 2 ^ k * f.esize) (len * f.esize)) := by
  have h2 := h.start_lt offset
  have h3 := h.len_le hl
  unfold outCopy
  rw [h.plan hl]
  simp only
  rw [rd_eq_some (by omega), rd_eq_some (by omega)]
  simp only [Option.bind_eq_bind, Option.bind_some, Option.pure_def]
  rw [ringGet_split _ _ _ (by omega) h3]

theorem inCopy_eq (h : Inv f k) {len : Nat} (hl : len ≤ 2 ^ k) (offset : Nat) (buff : List Byte)
    (hb : len * f.esize ≤ buff.length) :
    inCopy f buff len offset =
      some { f with data := ringPut f.data (offset % 2 ^ k * f.esize) (buff.take (len * f.esize)) } := by
  have h2 := h.start_lt offset
  have h3 := h.len_le hl
  unfold inCopy
  rw [h.plan hl]
  simp only
  generalize offset % 2 ^ k * f.esize = o at *
  generalize len * f.esize = n at *
  have hmin : min n (f.data.length - o) ≤ n := Nat.min_le_left _ _
  have hmin2 : min n (f.data.length - o) ≤ f.data.length - o := Nat.min_le_right _ _
  rw [rd_eq_some (by omega)]
  simp only [Option.bind_eq_bind, Option.bind_some, Option.pure_def]
  rw [wr_eq_some (by simp; omega)]
  simp only [Option.bind_eq_bind, Option.bind_some, Option.pure_def]
  rw [rd_eq_some (by omega)]
  simp only [Option.bind_eq_bind, Option.bind_some, Option.pure_def]
  rw [wr_eq_some (by simp; omega)]
  simp only [Option.bind_eq_bind, Option.bind_some, Option.pure_def, ringPut]
  have e1 : (buff.take n).length = n := by simp; omega
  have e2 : (buff.drop 0).take (min n (f.data.length - o)) = (buff.take n).take (min n (f.data.length - o)) := by
    rw [List.drop_zero, List.take_take, Nat.min_eq_left hmin]
  have e3 : (buff.drop (min n (f.data.length - o))).take (n - min n (f.data.length - o)) =
      (buff.take n).drop (min n (f.data.length - o)) := by
    rw [List.drop_take]
  rw [e1, e2, e3]

end Inv

/-- The bytes of the stored elements, oldest first. -/
def contents (f : Fifo) : List Byte :=
  ringGet f.data (f.out % (f.mask + 1) * f.esize) (valid f * f.esize)

/-- The fifo `f` represents the queue `q`. -/
structure Rep (f : Fifo) (k : Nat) (q : Queue) : Prop where
  inv : Inv f k
  hcap : q.cap = 2 ^ k
  hlen : q.items.length = valid f
  hels : ∀ e ∈ q.items, e.length = f.esize
  hcont : contents f = q.items.flatten

theorem flatten_length {l : List (List Byte)} {e : Nat} (h : ∀ x ∈ l, x.length = e) :
    l.flatten.length = l.length * e := by
  induction l with
  | nil => simp
  | cons a t ih =>
    rw [List.flatten_cons, List.length_append, ih (fun x hx => h x (List.mem_cons_of_mem _ hx)),
      h a (List.mem_cons_self), List.length_cons, Nat.succ_mul]; omega

theorem flatten_take {l : List (List Byte)} {e : Nat} (h : ∀ x ∈ l, x.length = e) (n : Nat) :
    (l.take n).flatten = l.flatten.take (n * e) := by
  induction l generalizing n with
  | nil => simp
  | cons a t ih =>
    cases n with
    | zero => simp
    | succ n =>
      have ha := h a (List.mem_cons_self)
      rw [List.take_succ_cons, List.flatten_cons, List.flatten_cons, ih (fun x hx => h x (List.mem_cons_of_mem _ hx)),
        List.take_append, ha]
      have e1 : (n + 1) * e - e = n * e := by rw [Nat.succ_mul]; omega
      rw [e1, List.take_of_length_le (l := a) (by rw [ha, Nat.succ_mul]; omega)]

theorem flatten_drop {l : List (List Byte)} {e : Nat} (h : ∀ x ∈ l, x.length = e) (n : Nat) :
    (l.drop n).flatten = l.flatten.drop (n * e) := by
  induction l generalizing n with
  | nil => simp
  | cons a t ih =>
    cases n with
    | zero => simp
    | succ n =>
      have ha := h a (List.mem_cons_self)
      rw [List.drop_succ_cons, List.flatten_cons, ih (fun x hx => h x (List.mem_cons_of_mem _ hx)),
        List.drop_append, ha]
      have e1 : (n + 1) * e - e = n * e := by rw [Nat.succ_mul]; omega
      rw [e1, List.drop_of_length_le (l := a) (by rw [ha, Nat.succ_mul]; omega), List.nil_append]

namespace Rep
variable {f : Fifo} {k : Nat} {q : Queue}

theorem valid_le (h : Rep f k q) : valid f ≤ 2 ^ k := by have := h.inv.hvalid; rw [h.inv.hmask] at this; exact this

theorem peekFlat_eq (h : Rep f k q) (len : Nat) :
    peekFlat f len = some (min len q.items.length, (q.items.take (min len q.items.length)).flatten) := by
  have hv := h.valid_le
  unfold peekFlat
  simp only
  rw [h.inv.outCopy_eq (by omega)]
  simp only [Option.bind_eq_bind, Option.bind_some, Option.pure_def]
  rw [flatten_take h.hels, ← h.hcont, h.hlen]
  unfold contents
  rw [h.inv.hmask, ← ringGet_take]
  exact Nat.mul_le_mul_right _ (Nat.min_le_right _ _)

/-- Consuming `n` elements. -/
theorem advance (h : Rep f k q) (n : Nat) (hn : n ≤ q.items.length) :
    Rep { f with out := w64 (f.out + n) } k { q with items := q.items.drop n } := by
  have hv := h.valid_le
  have hn' : n ≤ valid f := by rw [← h.hlen]; exact hn
  have hsz := h.inv.size_lt
  have hin := h.inv.hin
  have hout := h.inv.hout
  have hval : valid { f with out := w64 (f.out + n) } = valid f - n := by
    unfold valid wsub w64 at *; simp only [W64] at *; omega
  refine ⟨⟨h.inv.hmask, hin, Nat.mod_lt _ (by simp [W64]), h.inv.hes, h.inv.hdata, h.inv.hbound, ?_⟩, h.hcap, ?_, ?_, ?_⟩
  · rw [hval]; have := h.inv.hvalid; show valid f - n ≤ f.mask + 1; omega
  · rw [hval, List.length_drop, h.hlen]
  · intro e he; exact h.hels e (List.mem_of_mem_drop he)
  · unfold contents
    rw [hval, flatten_drop h.hels, ← h.hcont]
    unfold contents
    simp only
    rw [Nat.sub_mul]
    have hlen := h.inv.len_le hv
    apply ringGet_drop
    · rw [h.inv.hmask]; exact h.inv.start_lt _
    · exact hlen
    · exact Nat.mul_le_mul_right _ hn'
    · rw [h.inv.hdata, h.inv.hmask]
      exact pos_adv hsz h.inv.hes (by omega)

/-- Appending `n` elements whose bytes are `src`. -/
theorem append (h : Rep f k q) (els : List (List Byte)) (hels : ∀ e ∈ els, e.length = f.esize)
    (hn : q.items.length + els.length ≤ q.cap) :
    Rep { f with data := ringPut f.data (f.inp % 2 ^ k * f.esize) els.flatten, inp := w64 (f.inp + els.length) } k
      { q with items := q.items ++ els } := by
  have hv := h.valid_le
  have hsz := h.inv.size_lt
  have hin := h.inv.hin
  have hout := h.inv.hout
  rw [h.hcap, h.hlen] at hn
  have hval : ∀ d, valid { f with data := d, inp := w64 (f.inp + els.length) } = valid f + els.length := by
    intro d; unfold valid wsub w64 at *; simp only [W64] at *; omega
  have hfl := flatten_length hels
  have hst := h.inv.start_lt f.inp
  have hle : els.length * f.esize ≤ f.data.length := h.inv.len_le (by omega)
  have hle2 : (valid f + els.length) * f.esize ≤ f.data.length := h.inv.len_le (by omega)
  have hpl : (ringPut f.data (f.inp % 2 ^ k * f.esize) els.flatten).length = f.data.length :=
    ringPut_length _ _ _ (by omega) (by omega)
  refine ⟨⟨h.inv.hmask, Nat.mod_lt _ (by simp [W64]), hout, h.inv.hes, ?_, ?_, ?_⟩, h.hcap, ?_, ?_, ?_⟩
  · rw [hpl]; exact h.inv.hdata
  · rw [hpl]; exact h.inv.hbound
  · rw [hval]; have := h.inv.hmask; show valid f + els.length ≤ f.mask + 1; omega
  · rw [hval]; simp [h.hlen]
  · intro e he
    rcases List.mem_append.1 he with he | he
    · exact h.hels e he
    · exact hels e he
  · show contents _ = (q.items ++ els).flatten
    rw [List.flatten_append, ← h.hcont]
    unfold contents
    rw [hval]
    simp only
    have e2 : (valid f + els.length) * f.esize = valid f * f.esize + els.flatten.length := by
      rw [hfl, Nat.add_mul]
    rw [e2]
    apply ringGet_put
    · rw [h.inv.hmask]; exact h.inv.start_lt _
    · rw [← e2]; exact hle2
    · rw [h.inv.hdata, h.inv.hmask, h.inv.inp_eq]
      exact pos_adv hsz h.inv.hes hv

theorem inFlat_eq (h : Rep f k q) (elems : List (List Byte)) (len : Nat)
    (hels : ∀ e ∈ elems, e.length = f.esize) (hl : len ≤ elems.length) :
    ∃ f', inFlat f elems.flatten len = some (f', min len (q.cap - q.items.length)) ∧ f'.esize = f.esize ∧
      Rep f' k { q with items := q.items ++ elems.take (min len (q.cap - q.items.length)) } := by
  have hv := h.valid_le
  have hun : unused f = q.cap - q.items.length := by rw [h.inv.unused_eq, h.hcap, h.hlen]
  have hfl := flatten_length hels
  have hmn : min len (q.cap - q.items.length) ≤ len := Nat.min_le_left _ _
  have hmn2 : min len (q.cap - q.items.length) ≤ q.cap - q.items.length := Nat.min_le_right _ _
  have hcap := h.hcap
  have htl : (elems.take (min len (q.cap - q.items.length))).length = min len (q.cap - q.items.length) := by
    rw [List.length_take]; omega
  have hap := h.append (elems.take (min len (q.cap - q.items.length)))
    (fun e he => hels e (List.mem_of_mem_take he)) (by have := h.hlen; rw [htl]; omega)
  unfold inFlat
  rw [hun]
  simp only
  rw [h.inv.inCopy_eq (by omega) _ _ (by rw [hfl]; exact Nat.mul_le_mul_right _ (by omega))]
  simp only [Option.bind_eq_bind, Option.bind_some, Option.pure_def]
  refine ⟨_, rfl, rfl, ?_⟩
  rw [flatten_take hels, htl] at hap
  exact hap

theorem put_eq (h : Rep f k q) (v : List Byte) (hvl : v.length = f.esize) :
    ∃ f', put f v = some (f', decide (q.items.length < q.cap)) ∧ f'.esize = f.esize ∧
      Rep f' k (if q.items.length < q.cap then { q with items := q.items ++ [v] } else q) := by
  have hv := h.valid_le
  have hm := h.inv.hmask
  have hcap := h.hcap; have hlen := h.hlen
  unfold put full
  by_cases hc : q.items.length < q.cap
  · have hap := h.append [v] (by simpa using hvl) (by simp; omega)
    have hst := h.inv.start_lt f.inp
    have hmul : f.inp % 2 ^ k * f.esize + f.esize ≤ f.data.length := by
      rw [h.inv.hdata, h.inv.hmask, ← Nat.succ_mul]
      exact Nat.mul_le_mul_right _ (Nat.mod_lt _ (Nat.two_pow_pos k))
    rw [if_pos (by simp; omega), mask_mod hm, wr_eq_some (by omega)]
    simp only [Option.bind_eq_bind, Option.bind_some, Option.pure_def, hc, if_true, decide_true]
    refine ⟨_, rfl, rfl, ?_⟩
    have e1 : ringPut f.data (f.inp % 2 ^ k * f.esize) ([v] : List (List Byte)).flatten =
        f.data.take (f.inp % 2 ^ k * f.esize) ++ v ++ f.data.drop (f.inp % 2 ^ k * f.esize + v.length) := by
      unfold ringPut
      have e2 : ([v] : List (List Byte)).flatten = v := by simp
      have e3 : min v.length (f.data.length - f.inp % 2 ^ k * f.esize) = v.length := by omega
      rw [e2, e3]
      simp
    rw [e1] at hap
    exact hap
  · rw [if_neg (by simp; omega)]
    simp only [hc, if_false, decide_false]
    exact ⟨_, rfl, rfl, h⟩

theorem empty_iff (h : Rep f k q) : empty f = q.items.isEmpty := by
  have h1 := h.hlen
  have hin := h.inv.hin
  have hout := h.inv.hout
  unfold empty
  cases hq : q.items with
  | nil =>
    rw [hq] at h1
    have : f.inp = f.out := by unfold valid wsub at h1; simp only [W64, List.length_nil] at *; omega
    simp [this]
  | cons a t =>
    rw [hq] at h1
    have : f.inp ≠ f.out := by
      intro hc; unfold valid wsub at h1; rw [hc] at h1; simp only [W64, List.length_cons] at *; omega
    simp [this]

theorem head_eq (h : Rep f k q) (v : List Byte) (rest : List (List Byte)) (hq : q.items = v :: rest) :
    rd f.data ((f.out &&& f.mask) * f.esize) f.esize = some v := by
  have hm := h.inv.hmask
  have hmul : f.out % 2 ^ k * f.esize + f.esize ≤ f.data.length := by
    rw [h.inv.hdata, h.inv.hmask, ← Nat.succ_mul]
    exact Nat.mul_le_mul_right _ (Nat.mod_lt _ (Nat.two_pow_pos k))
  have hpk := h.peekFlat_eq 1
  have hl := h.hlen
  rw [hq] at hpk hl
  have hvp : 1 ≤ valid f := by rw [← hl]; simp
  have hc := h.hcont
  rw [hq] at hc
  rw [mask_mod hm, rd_eq_some hmul]
  congr 1
  have h2 : (contents f).take (1 * f.esize) = v := by
    rw [hc, ← flatten_take (by intro x hx; exact h.hels x (by rw [hq]; exact hx))]
    simp
  rw [← h2]
  unfold contents
  rw [hm, ← ringGet_take _ _ _ _ (Nat.mul_le_mul_right _ hvp), Nat.one_mul]
  unfold ringGet
  rw [List.take_append, List.length_drop]
  have e0 : f.esize - (f.data.length - f.out % 2 ^ k * f.esize) = 0 := by omega
  rw [e0]; simp

theorem cleared (h : Rep f k q) (f' : Fifo) (hm : f'.mask = f.mask) (he : f'.esize = f.esize) (hd : f'.data = f.data)
    (hi : f'.inp = f'.out) (ho : f'.out < W64) : Rep f' k { q with items := [] } := by
  have hval : valid f' = 0 := by unfold valid wsub; rw [hi]; simp only [W64] at *; omega
  refine ⟨⟨by rw [hm]; exact h.inv.hmask, by omega, ho, by rw [he]; exact h.inv.hes,
    by rw [hd, hm, he]; exact h.inv.hdata, by rw [hd]; exact h.inv.hbound, by omega⟩, h.hcap, ?_, ?_, ?_⟩
  · rw [hval]; rfl
  · intro e he; simp at he
  · unfold contents; rw [hval]; simp [ringGet]

end Rep
end Bfdev.Fifo
